import Verif.StrProc.Model
/-!
C15, C16, C17, C39: string processing.
-/
namespace Thot.StrProc

/-- A non-empty string without blanks or tabs. -/
def IsWord (t : Str) : Prop := t ≠ [] ∧ ∀ c ∈ t, isBlank c = false
/-- Only blanks and tabs (possibly empty). -/
def Blanks (b : Str) : Prop := ∀ c ∈ b, isBlank c = true

/-- Specification of tokenisation: `s` is blanks, word, blanks, word, …; a word ends at a blank or at the
end of the string. -/
inductive Tokens : Str → List Str → Prop where
  | nil {b : Str} : Blanks b → Tokens b []
  | cons {b t rest : Str} {ts : List Str} : Blanks b → IsWord t →
      (rest = [] ∨ ∃ c r, rest = c :: r ∧ isBlank c = true) → Tokens rest ts →
      Tokens (b ++ t ++ rest) (t :: ts)

theorem isBlank_iff (c : Char) : isBlank c = true ↔ (c = ' ' ∨ c = '\t') := by
  simp [isBlank]

theorem wordLoop_spec (aux s : Str) : ∃ w r, wordLoop aux s = (aux ++ w, r) ∧ s = w ++ r ∧
    (∀ c ∈ w, isBlank c = false) ∧ (r = [] ∨ ∃ c r', r = c :: r' ∧ isBlank c = true) := by
  induction s generalizing aux with
  | nil => exact ⟨[], [], by simp [wordLoop], rfl, by simp, Or.inl rfl⟩
  | cons c cs ih =>
    rw [wordLoop]
    split <;> rename_i h
    · obtain ⟨w, r, h1, h2, h3, h4⟩ := ih (aux ++ [c])
      refine ⟨c :: w, r, by rw [h1]; simp, by rw [h2]; rfl, ?_, h4⟩
      intro x hx
      rcases List.mem_cons.1 hx with rfl | hx
      · simp [isBlank, h.1, h.2]
      · exact h3 x hx
    · refine ⟨[], c :: cs, by simp, rfl, by simp, Or.inr ⟨c, cs, rfl, ?_⟩⟩
      rw [isBlank_iff]
      by_cases h1 : c = ' '
      · exact Or.inl h1
      · by_cases h2 : c = '\t'
        · exact Or.inr h2
        · exact absurd ⟨h1, h2⟩ h

theorem skipLoop_spec (s : Str) : ∃ b, s = b ++ skipLoop s ∧ Blanks b ∧
    (skipLoop s = [] ∨ ∃ c r, skipLoop s = c :: r ∧ isBlank c = false) := by
  induction s with
  | nil => exact ⟨[], rfl, by simp [Blanks], Or.inl rfl⟩
  | cons c cs ih =>
    rw [skipLoop]
    split <;> rename_i h
    · obtain ⟨b, h1, h2, h3⟩ := ih
      refine ⟨c :: b, by rw [List.cons_append, ← h1], ?_, h3⟩
      intro x hx
      rcases List.mem_cons.1 hx with rfl | hx
      · exact (isBlank_iff _).2 h
      · exact h2 x hx
    · exact ⟨[], rfl, by simp [Blanks], Or.inr ⟨c, cs, rfl, by
        rw [Bool.eq_false_iff, ne_eq, isBlank_iff]; exact h⟩⟩

theorem Tokens.blanks {b s : Str} {ts : List Str} (hb : Blanks b) (h : Tokens s ts) : Tokens (b ++ s) ts := by
  have happ : ∀ {x y : Str}, Blanks x → Blanks y → Blanks (x ++ y) := by
    intro x y hx hy c hc
    rcases List.mem_append.1 hc with h | h
    · exact hx c h
    · exact hy c h
  cases h with
  | nil h => exact .nil (happ hb h)
  | @cons b' t rest ts h1 h2 h3 h4 =>
    have : b ++ (b' ++ t ++ rest) = (b ++ b') ++ t ++ rest := by simp
    rw [this]; exact .cons (happ hb h1) h2 h3 h4

/-- The tokenisation specified is unique. -/
theorem Tokens.unique {s : Str} {ts : List Str} (h : Tokens s ts) : ∀ {ts' : List Str}, Tokens s ts' → ts = ts' := by
  have split : ∀ {b t rest b' t' rest' : Str}, Blanks b → IsWord t →
      (rest = [] ∨ ∃ c r, rest = c :: r ∧ isBlank c = true) → Blanks b' → IsWord t' →
      (rest' = [] ∨ ∃ c r, rest' = c :: r ∧ isBlank c = true) →
      b ++ t ++ rest = b' ++ t' ++ rest' → t = t' ∧ rest = rest' := by
    intro b t rest b' t' rest' hb ht hr hb' ht' hr' he
    have e1 : ∀ {b t rest : Str}, Blanks b → IsWord t → (b ++ t ++ rest).dropWhile isBlank = t ++ rest := by
      intro b t rest hb ht
      rw [List.append_assoc, List.dropWhile_append_of_pos hb]
      obtain ⟨hne, ht⟩ := ht
      cases t with
      | nil => exact absurd rfl hne
      | cons c t => rw [List.cons_append, List.dropWhile_cons_of_neg]; simp [ht c (by simp)]
    have e2 : ∀ {t rest : Str}, IsWord t → (rest = [] ∨ ∃ c r, rest = c :: r ∧ isBlank c = true) →
        (t ++ rest).takeWhile (fun c => !isBlank c) = t ∧ (t ++ rest).dropWhile (fun c => !isBlank c) = rest := by
      intro t rest ht hr
      have hall : ∀ c ∈ t, (!isBlank c) = true := fun c hc => by simp [ht.2 c hc]
      rw [List.takeWhile_append_of_pos hall, List.dropWhile_append_of_pos hall]
      rcases hr with rfl | ⟨c, r, rfl, hc⟩
      · simp
      · simp [hc]
    have h1 := congrArg (List.dropWhile isBlank) he
    rw [e1 hb ht, e1 hb' ht'] at h1
    have h2 := congrArg (List.takeWhile (fun c => !isBlank c)) h1
    have h3 := congrArg (List.dropWhile (fun c => !isBlank c)) h1
    rw [(e2 ht hr).1, (e2 ht' hr').1] at h2
    rw [(e2 ht hr).2, (e2 ht' hr').2] at h3
    exact ⟨h2, h3⟩
  have noword : ∀ {b t rest x : Str}, IsWord t → Blanks x → x = b ++ t ++ rest → False := by
    intro b t rest x ht hx he
    obtain ⟨hne, ht⟩ := ht
    cases t with
    | nil => exact hne rfl
    | cons c t =>
      have := hx c (by rw [he]; simp)
      rw [ht c (by simp)] at this; cases this
  induction h with
  | @nil x hb =>
    intro ts' h'
    generalize hs : x = s' at h'
    cases h' with
    | nil => rfl
    | cons h1 h2 h3 h4 => exact (noword h2 hb hs).elim
  | @cons b t rest ts h1 h2 h3 h4 ih =>
    intro ts' h'
    generalize hs : b ++ t ++ rest = s' at h'
    cases h' with
    | nil hb => exact (noword h2 hb hs.symm).elim
    | cons g1 g2 g3 g4 =>
      obtain ⟨e1, e2⟩ := split h1 h2 h3 g1 g2 g3 hs
      subst e1 e2
      rw [ih g4]

/-- **C15.** For every string, `stringToStringVector` returns its tokenisation (unique by
`Tokens.unique`). -/
theorem C15_tokens (s : Str) : Tokens s (stringToStringVector s) := by
  unfold stringToStringVector
  induction hn : s.length using Nat.strongRecOn generalizing s with
  | ind n ih =>
    cases s with
    | nil => rw [splitLoop]; simpa [wordLoop] using Tokens.nil (b := []) (by simp [Blanks])
    | cons c cs =>
      have hlen := iter_len c cs
      rw [splitLoop]
      obtain ⟨w, r, h1, h2, h3, h4⟩ := wordLoop_spec [] (c :: cs)
      simp only [List.nil_append] at h1
      simp only [h1] at hlen ⊢
      obtain ⟨b, g1, g2, g3⟩ := skipLoop_spec r
      have hrest : Tokens r (if skipLoop r = [] then [] else splitLoop (skipLoop r)) := by
        split
        · rename_i he
          rw [he, List.append_nil] at g1
          rw [g1]; exact .nil g2
        · have := ih _ (by omega) (skipLoop r) rfl
          have := this.blanks g2
          rw [← g1] at this; exact this
      rw [h2]
      by_cases hw : w = []
      · subst hw; simpa using hrest
      · have := Tokens.cons (b := []) (t := w) (rest := r) (by simp [Blanks]) ⟨hw, h3⟩ h4 hrest
        simp only [List.nil_append] at this
        rw [if_pos hw]
        by_cases he : skipLoop r = []
        · simpa [he] using this
        · simpa [he] using this

theorem Tokens.words {s : Str} {ts : List Str} (h : Tokens s ts) :
    (∀ t ∈ ts, IsWord t) ∧ ts.flatten = s.filter (fun c => !isBlank c) := by
  have hf : ∀ {b : Str}, Blanks b → b.filter (fun c => !isBlank c) = [] := by
    intro b hb; rw [List.filter_eq_nil_iff]; intro c hc; simp [hb c hc]
  induction h with
  | nil hb => exact ⟨by simp, by rw [hf hb]; rfl⟩
  | @cons b t rest ts h1 h2 h3 h4 ih =>
    refine ⟨?_, ?_⟩
    · intro x hx
      rcases List.mem_cons.1 hx with rfl | hx
      · exact h2
      · exact ih.1 x hx
    · have : t.filter (fun c => !isBlank c) = t := by
        rw [List.filter_eq_self]; intro c hc; simp [h2.2 c hc]
      rw [List.flatten_cons, ih.2, List.filter_append, List.filter_append, hf h1, this]; rfl

/-- **C15, consequences.** Tokens are non-empty, blank-free and concatenate to the input without blanks. -/
theorem C15_token_facts (s : Str) : (∀ t ∈ stringToStringVector s, t ≠ [] ∧ ∀ c ∈ t, c ≠ ' ' ∧ c ≠ '\t') ∧
    (stringToStringVector s).flatten = s.filter (fun c => c != ' ' && c != '\t') := by
  obtain ⟨h1, h2⟩ := (C15_tokens s).words
  refine ⟨fun t ht => ⟨(h1 t ht).1, fun c hc => ?_⟩, ?_⟩
  · have := (h1 t ht).2 c hc
    rw [Bool.eq_false_iff, ne_eq, isBlank_iff] at this
    exact ⟨fun h => this (Or.inl h), fun h => this (Or.inr h)⟩
  · rw [h2]; congr 1; funext c; simp [isBlank, bne]

theorem joinLoop_acc (r : Str) (ws : List Str) : joinLoop r ws = r ++ joinLoop [] ws := by
  induction ws generalizing r with
  | nil => simp [joinLoop]
  | cons w ws ih => rw [joinLoop, joinLoop, ih, ih ([] ++ _)]; simp

theorem tokens_join (ws : List Str) (h : ∀ t ∈ ws, IsWord t) : Tokens (stringVectorToString ws) ws := by
  cases ws with
  | nil => exact .nil (by simp [Blanks, stringVectorToString])
  | cons w ws =>
    simp only [stringVectorToString]
    induction ws generalizing w with
    | nil =>
      have := Tokens.cons (b := []) (t := w) (rest := []) (ts := []) (by simp [Blanks]) (h w (by simp))
        (Or.inl rfl) (.nil (by simp [Blanks]))
      simpa [joinLoop] using this
    | cons v ws ih =>
      have hv := ih v (fun t ht => h t (by simp at ht ⊢; exact Or.inr ht))
      have hv' := hv.blanks (b := [' ']) (by simp [Blanks, isBlank])
      have := Tokens.cons (b := []) (t := w) (rest := [' '] ++ joinLoop v ws) (by simp [Blanks]) (h w (by simp))
        (Or.inr ⟨' ', _, rfl, rfl⟩) hv'
      rw [joinLoop, joinLoop_acc]
      rw [joinLoop_acc v] at this
      simpa using this

/-- **C15, round trip.** Joining words and tokenising gives the words back. -/
theorem C15_roundtrip (ws : List Str) (h : ∀ t ∈ ws, t ≠ [] ∧ ∀ c ∈ t, c ≠ ' ' ∧ c ≠ '\t') :
    stringToStringVector (stringVectorToString ws) = ws := by
  refine (C15_tokens _).unique (tokens_join ws fun t ht => ⟨(h t ht).1, fun c hc => ?_⟩)
  rw [Bool.eq_false_iff, ne_eq, isBlank_iff]
  intro hh
  exact hh.elim ((h t ht).2 c hc).1 ((h t ht).2 c hc).2

example : ∀ t ∈ ["ab".toList, "c".toList], t ≠ [] ∧ ∀ c ∈ t, c ≠ ' ' ∧ c ≠ '\t' := by decide

/-! ## C16 – prefixes -/

theorem isPrefixLoop_iff (a b : Str) : isPrefixLoop a b = true ↔ a <+: b := by
  induction a generalizing b with
  | nil => simp [isPrefixLoop]
  | cons x a ih =>
    cases b with
    | nil => simp [isPrefixLoop]
    | cons y b =>
      rw [isPrefixLoop]
      by_cases h : x = y
      · subst h; simp [ih, List.cons_prefix_cons]
      · simp [h, List.cons_prefix_cons]

/-- **C16.** `isPrefix(a,b)` holds exactly when `b` is `a` followed by something. -/
theorem C16_isPrefix (a b : Str) : isPrefix a b = true ↔ ∃ x, b = a ++ x := by
  have : isPrefix a b = true ↔ a <+: b := by
    unfold isPrefix
    split
    · rename_i h
      constructor
      · intro h'; cases h'
      · intro h'; have := h'.length_le; omega
    · exact isPrefixLoop_iff a b
  rw [this]
  constructor
  · rintro ⟨x, h⟩; exact ⟨x, h.symm⟩
  · rintro ⟨x, h⟩; exact ⟨x, h.symm⟩

theorem isPrefixStrVecLoop_iff (u v : List Str) : isPrefixStrVecLoop u v = true ↔
    (u = [] ∨ ∃ i l x r, u = i ++ [l] ∧ v = i ++ (l ++ x) :: r) := by
  induction u generalizing v with
  | nil => simp [isPrefixStrVecLoop]
  | cons a u ih =>
    cases v with
    | nil => simp [isPrefixStrVecLoop]
    | cons b v =>
      rw [isPrefixStrVecLoop]
      by_cases hu : u = []
      · subst hu
        have : (if a ≠ b then if ([] : List Str).length = 0 then
            if (!isPrefix a b) = true then false else isPrefixStrVecLoop [] v else false
            else isPrefixStrVecLoop [] v) = isPrefix a b := by
          by_cases h : a = b
          · have hp : isPrefix a b = true := (C16_isPrefix a b).2 ⟨[], by simp [h]⟩
            simp [h, isPrefixStrVecLoop, h ▸ hp]
          · cases hp : isPrefix a b <;> simp [h, isPrefixStrVecLoop]
        rw [this, C16_isPrefix]
        constructor
        · rintro ⟨x, rfl⟩; exact Or.inr ⟨[], a, x, v, rfl, rfl⟩
        · rintro (h | ⟨i, l, x, r, h1, h2⟩)
          · cases h
          · cases i with
            | nil => simp at h1 h2; exact ⟨x, by rw [h2.1, h1]⟩
            | cons y i => simp at h1
      · have hl : ¬ u.length = 0 := fun h => hu (List.length_eq_zero_iff.1 h)
        by_cases h : a = b
        · subst h
          simp only [ne_eq, not_true_eq_false, if_false]
          rw [ih]
          constructor
          · rintro (h | ⟨i, l, x, r, h1, h2⟩)
            · exact absurd h hu
            · exact Or.inr ⟨a :: i, l, x, r, by simp [h1], by simp [h2]⟩
          · rintro (h | ⟨i, l, x, r, h1, h2⟩)
            · cases h
            · cases i with
              | nil => simp at h1; exact absurd h1.2 hu
              | cons y i => simp at h1 h2; exact Or.inr ⟨i, l, x, r, h1.2, h2.2⟩
        · simp only [ne_eq, h, not_false_eq_true, if_true, hl, if_false]
          constructor
          · intro h; cases h
          · rintro (h' | ⟨i, l, x, r, h1, h2⟩)
            · cases h'
            · cases i with
              | nil => simp at h1; exact absurd h1.2 hu
              | cons y i => simp at h1 h2; exact absurd (h1.1.trans h2.1.symm) h

/-- **C16.** `isPrefixStrVec(u,v)` holds exactly when `u` is empty or all its words but the last are the
first words of `v` and its last word is a prefix of the next word of `v`. -/
theorem C16_isPrefixStrVec (u v : List Str) : isPrefixStrVec u v = true ↔
    (u = [] ∨ ∃ i l x r, u = i ++ [l] ∧ v = i ++ (l ++ x) :: r) := by
  unfold isPrefixStrVec
  split
  · rename_i h
    constructor
    · intro h'; cases h'
    · rintro (rfl | ⟨i, l, x, r, rfl, rfl⟩)
      · simp at h
      · simp at h
  · exact isPrefixStrVecLoop_iff u v

/-! ## C17 – last word -/

/-- Full statement of C17. -/
def C17_full : Prop := ∀ (u w : Str) (k : Nat), (u = [] ∨ ∃ u', u = u' ++ [' ']) → w ≠ [] →
  (∀ c ∈ w, c ≠ ' ') → getLastWord (u ++ w ++ List.replicate k ' ') = w

/-- **C17 is false of the code**: `getLastWord("abc") = "bc"`. -/
theorem C17_counterexample : ¬ C17_full := by
  intro h
  have := h [] ['a', 'b', 'c'] 0 (Or.inl rfl) (by simp) (by decide)
  revert this; decide

theorem lastSkip_blanks (k : Nat) (c : Char) (r : Str) (hc : c ≠ ' ') :
    lastSkip (List.replicate k ' ' ++ c :: r) = c :: r := by
  induction k with
  | zero => cases r <;> simp [lastSkip, hc]
  | succ k ih =>
    rw [List.replicate_succ, List.cons_append]
    cases k with
    | zero => simp only [List.replicate_zero, List.nil_append] at ih ⊢; rw [lastSkip, if_pos rfl, ih]
    | succ k =>
      rw [List.replicate_succ, List.cons_append] at ih ⊢
      rw [lastSkip, if_pos rfl, ih]

theorem lastTake_word (w : Str) (hw : ∀ c ∈ w, c ≠ ' ') (res r : Str) :
    lastTake res (w ++ ' ' :: r) = w.reverse ++ res := by
  induction w generalizing res with
  | nil => cases r <;> simp [lastTake]
  | cons c w ih =>
    have hc := hw c (by simp)
    cases w with
    | nil => simp only [List.cons_append, List.nil_append]; rw [lastTake, if_pos hc]; cases r <;> simp [lastTake]
    | cons d w =>
      have := ih (fun x hx => hw x (by simp [hx])) (c :: res)
      simp only [List.cons_append] at this ⊢
      rw [lastTake, if_pos hc, this]; simp

theorem lastTake_all (w : Str) (hw : ∀ c ∈ w, c ≠ ' ') (res : Str) :
    lastTake res w = w.dropLast.reverse ++ res := by
  induction w generalizing res with
  | nil => simp [lastTake]
  | cons c w ih =>
    have hc := hw c (by simp)
    cases w with
    | nil => simp [lastTake]
    | cons d w =>
      have := ih (fun x hx => hw x (by simp [hx])) (c :: res)
      rw [lastTake, if_pos hc, this]; simp

/-- **C17 (partial).** The last word is returned whenever a blank precedes it. Missing: strings consisting
of a single word. -/
theorem C17_last_word_partial (u w : Str) (k : Nat) (hne : w ≠ []) (hw : ∀ c ∈ w, c ≠ ' ') :
    getLastWord (u ++ ' ' :: w ++ List.replicate k ' ') = w := by
  unfold getLastWord
  rw [if_neg (by simp)]
  have e : (u ++ ' ' :: w ++ List.replicate k ' ').reverse
      = List.replicate k ' ' ++ (w.reverse ++ ' ' :: u.reverse) := by simp
  rw [e]
  have hr : ∀ c ∈ w.reverse, c ≠ ' ' := fun c hc => hw c (by simpa using hc)
  cases hwr : w.reverse with
  | nil => exact absurd (by simpa using hwr) hne
  | cons c r =>
    rw [List.cons_append, lastSkip_blanks k c _ (hr c (by rw [hwr]; simp)), ← List.cons_append, ← hwr,
      lastTake_word _ hr]; simp

/-- What the code does on a single word: the first character is lost. -/
theorem C17_single_word (w : Str) (k : Nat) (hne : w ≠ []) (hw : ∀ c ∈ w, c ≠ ' ') :
    getLastWord (w ++ List.replicate k ' ') = w.tail := by
  unfold getLastWord
  have hl : 0 < w.length := List.length_pos_iff.2 hne
  rw [if_neg (by rw [List.length_append]; omega)]
  have e : (w ++ List.replicate k ' ').reverse = List.replicate k ' ' ++ w.reverse := by simp
  rw [e]
  have hr : ∀ c ∈ w.reverse, c ≠ ' ' := fun c hc => hw c (by simpa using hc)
  cases hwr : w.reverse with
  | nil => exact absurd (by simpa using hwr) hne
  | cons c r =>
    rw [lastSkip_blanks k c _ (hr c (by rw [hwr]; simp)), ← hwr, lastTake_all _ hr]; simp

example : getLastWord "the house  ".toList = "house".toList ∧ getLastWord "house".toList = "ouse".toList := by
  decide

/-! ## C39 – trailing blanks and library directory expansion -/

/-- **C39.** `removeLastBlank` removes exactly one trailing blank if there is one; it undoes `addBlank`. -/
theorem C39_blank (s : Str) : removeLastBlank (addBlank s) = s ∧ lastCharIsBlank (addBlank s) = true := by
  constructor
  · simp [removeLastBlank, addBlank]
  · simp [lastCharIsBlank, addBlank]

theorem C39_lastCharIsBlank (s : Str) : lastCharIsBlank s = true ↔ ∃ u, s = u ++ [' '] := by
  constructor
  · intro h
    unfold lastCharIsBlank at h
    split at h
    · rename_i hl
      split at h
      · rename_i hc
        obtain ⟨hlt, hc⟩ := List.getElem?_eq_some_iff.1 hc
        refine ⟨s.take (s.length - 1), ?_⟩
        rw [← hc, ← List.take_succ_eq_append_getElem hlt, List.take_of_length_le (by omega)]
      · cases h
    · cases h
  · rintro ⟨u, rfl⟩; exact (C39_blank u).2

theorem C39_removeLastBlank_id (s : Str) (h : lastCharIsBlank s = false) : removeLastBlank s = s := by
  unfold removeLastBlank
  unfold lastCharIsBlank at h
  split
  · rename_i hl
    rw [if_pos hl] at h
    split
    · rename_i hc; simp [hc] at h
    · rfl
  · rfl

/-- **C39.** `$(VAR)` at the beginning of a module name is replaced by the library directory; other names
are unchanged. -/
theorem C39_expand (var lib so : Str) :
    (∀ rest, so = var ++ rest → expandLibDirIfFound var lib so = lib ++ rest) ∧
    ((¬ ∃ rest, so = var ++ rest) → expandLibDirIfFound var lib so = so) := by
  constructor
  · rintro rest rfl
    unfold expandLibDirIfFound
    rw [if_neg (by rw [List.length_append]; omega), if_pos (by simp)]
    simp
  · intro h
    unfold expandLibDirIfFound
    split
    · rfl
    · split
      · rename_i h1 h2
        exact absurd ⟨so.drop var.length, by
          have := List.take_append_drop var.length so
          rw [← h2] at this; exact this.symm⟩ h
      · rfl

end Thot.StrProc
