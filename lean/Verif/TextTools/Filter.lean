import Verif.TextTools.Model
/-!
C273, C274, C278: filtering tables by a corpus, unknown words.
-/
namespace Thot.TextTools

open Thot
open Thot.SentHandler (joinWords Word fields_join)
open Thot.Awk (fields)
open Thot.PhrTools (join_inj)

/-! ### C273: specification -/

/-- A line of a phrase table. -/
structure PhrEntry where
  src : List W
  trg : List W
  rest : List W

/-- Words, none of them `|||`. -/
def Plain (ws : List W) : Prop := ∀ w ∈ ws, Word w ∧ w ≠ "|||".toList

structure PhrEntry.Ok (e : PhrEntry) : Prop where
  src : Plain e.src
  trg : Plain e.trg
  rest : Plain e.rest
  ne : e.rest ≠ []

/-- The line of an entry: the phrases and their counts separated by `|||`. -/
def phrLine (e : PhrEntry) : W := joinWords (e.src ++ ["|||".toList] ++ e.trg ++ ["|||".toList] ++ e.rest)

open Classical in
/-- The entries whose second phrase occurs in a sentence. -/
noncomputable def occurring (sents : List (List W)) (es : List PhrEntry) : List PhrEntry :=
  es.filter fun e => decide (e.trg ≠ [] ∧ ∃ s ∈ sents, e.trg <:+: s)

/-! ### Proof -/

theorem bars_word : Word bars := ⟨by decide, by decide⟩

theorem skip_spec : ∀ (a r : List W), Plain a → r ≠ [] → skipBars (a ++ bars :: r) = r := by
  intro a
  induction a with
  | nil =>
    intro r _ hr
    obtain ⟨v, r, rfl⟩ := List.exists_cons_of_ne_nil hr
    show (if bars = bars then _ else _) = _
    rw [if_pos rfl]
  | cons w a ih =>
    intro r ha hr
    obtain ⟨v, l, hv⟩ : ∃ v l, a ++ bars :: r = v :: l := List.exists_cons_of_ne_nil (by simp)
    rw [List.cons_append, hv]
    show (if w = bars then _ else skipBars (v :: l)) = _
    have hw : w ≠ bars := (ha w List.mem_cons_self).2
    rw [if_neg hw, ← hv, ih r (fun x hx => ha x (List.mem_cons_of_mem _ hx)) hr]

theorem collect_spec : ∀ (b r : List W), Plain b → r ≠ [] → collect (b ++ bars :: r) = joinWords b := by
  intro b
  induction b with
  | nil =>
    intro r _ hr
    obtain ⟨v, r, rfl⟩ := List.exists_cons_of_ne_nil hr
    show (if bars = bars then _ else _) = _
    rw [if_pos rfl]; rfl
  | cons w b ih =>
    intro r hb hr
    have hih := ih r (fun x hx => hb x (List.mem_cons_of_mem _ hx)) hr
    have hw : w ≠ bars := (hb w List.mem_cons_self).2
    cases b with
    | nil =>
      show (if w = bars then [] else (if bars = bars then w else w ++ [' ']) ++ collect (bars :: r)) = _
      rw [if_neg hw, if_pos rfl, show collect (bars :: r) = _ from hih]; simp [joinWords]
    | cons v b =>
      have hv : v ≠ bars := (hb v (by simp)).2
      show (if w = bars then [] else (if v = bars then w else w ++ [' ']) ++ collect (v :: b ++ bars :: r)) = _
      rw [if_neg hw, if_neg hv, hih]; simp [joinWords]

theorem mem_phrFrom : ∀ (ws pre : List W) (p : W), p ∈ phrFrom pre ws ↔ ∃ q, q ≠ [] ∧ q <+: ws ∧ p = joinWords (pre ++ q) := by
  intro ws
  induction ws with
  | nil =>
    intro pre p
    constructor
    · intro h; cases h
    · rintro ⟨q, h1, h2, _⟩; exact absurd (List.prefix_nil.1 h2) h1
  | cons w ws ih =>
    intro pre p
    show p ∈ _ :: phrFrom (pre ++ [w]) ws ↔ _
    rw [List.mem_cons, ih]
    constructor
    · rintro (rfl | ⟨q, h1, h2, rfl⟩)
      · exact ⟨[w], by simp, by simp, rfl⟩
      · exact ⟨w :: q, by simp, List.cons_prefix_cons.2 ⟨rfl, h2⟩, by simp⟩
    · rintro ⟨q, h1, h2, rfl⟩
      cases q with
      | nil => exact absurd rfl h1
      | cons v q =>
        obtain ⟨rfl, h3⟩ := List.cons_prefix_cons.1 h2
        by_cases hq : q = []
        · subst hq; left; rfl
        · right; exact ⟨q, hq, h3, by simp⟩

theorem mem_phrases : ∀ (ws : List W) (p : W), p ∈ phrases ws ↔ ∃ q, q ≠ [] ∧ q <:+: ws ∧ p = joinWords q := by
  intro ws
  induction ws with
  | nil =>
    intro p
    constructor
    · intro h; cases h
    · rintro ⟨q, h1, h2, _⟩; exact absurd (List.infix_nil.1 h2) h1
  | cons w ws ih =>
    intro p
    show p ∈ phrFrom [] (w :: ws) ++ phrases ws ↔ _
    rw [List.mem_append, mem_phrFrom, ih]
    constructor
    · rintro (⟨q, h1, h2, rfl⟩ | ⟨q, h1, h2, rfl⟩)
      · exact ⟨q, h1, h2.isInfix, rfl⟩
      · exact ⟨q, h1, List.infix_cons_iff.2 (Or.inr h2), rfl⟩
    · rintro ⟨q, h1, h2, rfl⟩
      rcases List.infix_cons_iff.1 h2 with h | h
      · exact Or.inl ⟨q, h1, h, rfl⟩
      · exact Or.inr ⟨q, h1, h, rfl⟩

theorem plain_words {ws : List W} (h : Plain ws) : ∀ w ∈ ws, Word w := fun w hw => (h w hw).1

theorem line_fields {e : PhrEntry} (h : e.Ok) : fields ' ' (phrLine e) = e.src ++ bars :: (e.trg ++ bars :: e.rest) := by
  unfold phrLine
  rw [fields_join]
  · simp [bars]
  · intro w hw
    simp only [List.mem_append, List.mem_singleton] at hw
    rcases hw with (((hw | rfl) | hw) | rfl) | hw
    · exact plain_words h.src w hw
    · exact bars_word
    · exact plain_words h.trg w hw
    · exact bars_word
    · exact plain_words h.rest w hw

theorem infix_words {q s : List W} (h : q <:+: s) (hs : ∀ w ∈ s, Word w) : ∀ w ∈ q, Word w := fun w hw => hs w (h.sublist.subset hw)

/-- **C273.** Filtering a phrase table by a corpus prints exactly the entries whose second phrase is a sequence of consecutive words of a
sentence, in their order. -/
theorem C273_filter (sents : List (List W)) (es : List PhrEntry) (hs : ∀ s ∈ sents, ∀ w ∈ s, Word w) (he : ∀ e ∈ es, e.Ok) :
    filterTtable (sents.map joinWords) (es.map phrLine) = (occurring sents es).map phrLine := by
  classical
  unfold filterTtable occurring
  rw [List.filter_map]
  congr 1
  apply List.filter_congr
  intro e hem
  have h := he e hem
  show decide (collect (skipBars (fields ' ' (phrLine e))) ∈ _) = _
  rw [line_fields h, skip_spec _ _ h.src (by simp), collect_spec _ _ h.trg h.ne]
  rw [decide_eq_decide, List.mem_flatMap]
  constructor
  · rintro ⟨c, hc, hp⟩
    obtain ⟨s, hsm, rfl⟩ := List.mem_map.1 hc
    rw [fields_join (hs s hsm)] at hp
    obtain ⟨q, h1, h2, h3⟩ := (mem_phrases _ _).1 hp
    have := join_inj (plain_words h.trg) (infix_words h2 (hs s hsm)) h3
    rw [this]
    exact ⟨h1, s, hsm, h2⟩
  · rintro ⟨h1, s, hsm, h2⟩
    exact ⟨_, List.mem_map.2 ⟨s, hsm, rfl⟩, by rw [fields_join (hs s hsm)]; exact (mem_phrases _ _).2 ⟨_, h1, h2, rfl⟩⟩

theorem plain_dec {ws : List W} (h : ∀ w ∈ ws, (w ≠ [] ∧ ∀ c ∈ w, c ≠ ' ' ∧ c ≠ '\n' ∧ c ≠ '\x00') ∧ w ≠ ['|', '|', '|']) : Plain ws := h

/-- The hypotheses are met. -/
example : filterTtable [joinWords [['a'], ['b'], ['c']]] [phrLine ⟨[['x']], [['b'], ['c']], [['1'], ['1']]⟩, phrLine ⟨[['x']], [['a'], ['c']], [['1'], ['1']]⟩] =
    [phrLine ⟨[['x']], [['b'], ['c']], [['1'], ['1']]⟩] := by
  have h := C273_filter [[['a'], ['b'], ['c']]] [⟨[['x']], [['b'], ['c']], [['1'], ['1']]⟩, ⟨[['x']], [['a'], ['c']], [['1'], ['1']]⟩]
    (by intro s hs; rw [List.mem_singleton.1 hs]; exact fun w hw => (plain_dec (ws := [['a'], ['b'], ['c']]) (by decide) w hw).1)
    (by intro e he
        simp only [List.mem_cons, List.not_mem_nil, or_false] at he
        rcases he with rfl | rfl <;> exact ⟨plain_dec (by decide), plain_dec (by decide), plain_dec (by decide), by simp⟩)
  rw [List.map_cons, List.map_cons, List.map_nil, List.map_cons, List.map_nil] at h
  rw [h]
  unfold occurring
  rw [List.filter_cons_of_pos, List.filter_cons_of_neg]
  · rfl
  · rw [decide_eq_true_eq]
    rintro ⟨_, s, hs, hi⟩
    rw [List.mem_singleton.1 hs] at hi
    revert hi; decide
  · rw [decide_eq_true_eq]
    exact ⟨by simp, _, List.mem_singleton.2 rfl, [['a']], [], rfl⟩

/-! ### C274: specification -/

/-- The lines of a vocabulary: index, word, and count. -/
def vocLine (v : W × W × W) : W := joinWords [v.1, v.2.1, v.2.2]

/-- A vocabulary: each index has one word. -/
structure VocOk (voc : List (W × W × W)) : Prop where
  words : ∀ v ∈ voc, Word v.1 ∧ Word v.2.1 ∧ Word v.2.2
  one : ∀ v ∈ voc, ∀ v' ∈ voc, v.1 = v'.1 → v.2.1 = v'.2.1

/-- A line of a table: indices of the words and counts. -/
def lexLine (e : W × W × List W) : W := joinWords (e.1 :: e.2.1 :: e.2.2)

/-- The words of the entry are a word of a source sentence, or NULL, and a word of its translation. -/
def Together (sv tv : List (W × W × W)) (corpus : List (List W × List W)) (e : W × W × List W) : Prop :=
  ∃ a ∈ sv, ∃ b ∈ tv, a.1 = e.1 ∧ b.1 = e.2.1 ∧ ∃ p ∈ corpus, (a.2.1 = "NULL".toList ∨ a.2.1 ∈ p.1) ∧ b.2.1 ∈ p.2

/-! ### Proof -/

theorem voc_fold (voc : List (W × W × W)) (hw : ∀ v ∈ voc, Word v.1 ∧ Word v.2.1 ∧ Word v.2.2) (idx : W) : ∀ m : List (W × W),
    (∃ v ∈ voc, v.1 = idx ∧ AMap.lk ((voc.map vocLine).foldl (fun m ln => AMap.put m ((fields ' ' ln).getD 0 []) ((fields ' ' ln).getD 1 [])) m) idx = some v.2.1) ∨
    ((∀ v ∈ voc, v.1 ≠ idx) ∧ AMap.lk ((voc.map vocLine).foldl (fun m ln => AMap.put m ((fields ' ' ln).getD 0 []) ((fields ' ' ln).getD 1 [])) m) idx = AMap.lk m idx) := by
  induction voc with
  | nil => intro m; right; exact ⟨by simp, rfl⟩
  | cons v voc ih =>
    intro m
    have hv := hw v List.mem_cons_self
    have hf : fields ' ' (vocLine v) = [v.1, v.2.1, v.2.2] := by
      unfold vocLine
      apply fields_join
      intro w hw'
      simp only [List.mem_cons, List.not_mem_nil, or_false] at hw'
      rcases hw' with rfl | rfl | rfl
      · exact hv.1
      · exact hv.2.1
      · exact hv.2.2
    rw [List.map_cons, List.foldl_cons, hf]
    rcases ih (fun x hx => hw x (List.mem_cons_of_mem _ hx)) (AMap.put m v.1 v.2.1) with ⟨x, hx, h1, h2⟩ | ⟨h1, h2⟩
    · exact Or.inl ⟨x, List.mem_cons_of_mem _ hx, h1, h2⟩
    · by_cases h : v.1 = idx
      · left
        refine ⟨v, List.mem_cons_self, h, ?_⟩
        rw [show ([v.1, v.2.1, v.2.2] : List W).getD 0 [] = v.1 from rfl, show ([v.1, v.2.1, v.2.2] : List W).getD 1 [] = v.2.1 from rfl, h2,
          AMap.lk_put, if_pos h.symm]
      · right
        refine ⟨?_, ?_⟩
        · intro x hx
          rcases List.mem_cons.1 hx with rfl | hx
          · exact h
          · exact h1 x hx
        · rw [show ([v.1, v.2.1, v.2.2] : List W).getD 0 [] = v.1 from rfl, show ([v.1, v.2.1, v.2.2] : List W).getD 1 [] = v.2.1 from rfl, h2,
            AMap.lk_put, if_neg fun e => h e.symm]

theorem vocOf_spec {voc : List (W × W × W)} (h : VocOk voc) (idx : W) :
    (∀ v ∈ voc, v.1 = idx → vocOf (voc.map vocLine) idx = v.2.1) ∧ ((∀ v ∈ voc, v.1 ≠ idx) → vocOf (voc.map vocLine) idx = []) := by
  have hf := voc_fold voc h.words idx []
  unfold vocOf
  constructor
  · intro v hv hvi
    rcases hf with ⟨x, hx, h1, h2⟩ | ⟨h1, _⟩
    · show (AMap.lk _ idx).getD [] = _
      rw [h2]
      exact h.one x hx v hv (h1.trans hvi.symm)
    · exact absurd hvi (h1 v hv)
  · intro hn
    rcases hf with ⟨x, hx, h1, _⟩ | ⟨_, h2⟩
    · exact absurd h1 (hn x hx)
    · show (AMap.lk _ idx).getD [] = _
      rw [h2]; rfl

theorem split_blank {a b c d : W} (ha : ' ' ∉ a) (hc : ' ' ∉ c) (h : a ++ ' ' :: b = c ++ ' ' :: d) : a = c ∧ b = d := by
  induction a generalizing c with
  | nil =>
    cases c with
    | nil => simp at h; exact ⟨rfl, h⟩
    | cons x c => simp at h; exact absurd (h.1 ▸ List.mem_cons_self) hc
  | cons y a ih =>
    cases c with
    | nil => simp at h; exact absurd (h.1 ▸ List.mem_cons_self) ha
    | cons x c =>
      simp at h
      obtain ⟨h1, h2⟩ := ih (fun hh => ha (List.mem_cons_of_mem _ hh)) (fun hh => hc (List.mem_cons_of_mem _ hh)) h.2
      exact ⟨by rw [h.1, h1], h2⟩

theorem word_blank {w : W} (h : Word w) : ' ' ∉ w := fun hc => (h.2 _ hc).1 rfl

theorem mem_pairsOf {s t : List W} (hs : ∀ w ∈ s, Word w) {a b : W} (ha : ' ' ∉ a) :
    a ++ ' ' :: b ∈ pairsOf s t ↔ (a = "NULL".toList ∨ a ∈ s) ∧ b ∈ t := by
  unfold pairsOf
  rw [List.mem_flatMap]
  constructor
  · rintro ⟨w, hw, hp⟩
    obtain ⟨v, hv, e⟩ := List.mem_map.1 hp
    have hwb : ' ' ∉ w := by
      rcases List.mem_cons.1 hw with rfl | hw
      · decide
      · exact word_blank (hs w hw)
    obtain ⟨rfl, rfl⟩ := split_blank hwb ha e
    exact ⟨List.mem_cons.1 hw, hv⟩
  · rintro ⟨h1, h2⟩
    exact ⟨a, List.mem_cons.2 h1, List.mem_map.2 ⟨b, h2, rfl⟩⟩

theorem corpusPairs_eq : ∀ corpus : List (List W × List W), (∀ p ∈ corpus, (∀ w ∈ p.1, Word w) ∧ ∀ w ∈ p.2, Word w) →
    corpusPairs (corpus.map fun p => joinWords p.1) (corpus.map fun p => joinWords p.2) = corpus.flatMap fun p => pairsOf p.1 p.2 := by
  intro corpus
  induction corpus with
  | nil => intro _; rfl
  | cons p corpus ih =>
    intro h
    obtain ⟨h1, h2⟩ := h p List.mem_cons_self
    show pairsOf (fields ' ' (joinWords p.1)) (fields ' ' (joinWords p.2)) ++ _ = _
    rw [fields_join h1, fields_join h2, ih fun x hx => h x (List.mem_cons_of_mem _ hx)]; rfl

open Classical in
/-- **C274.** Filtering a lexical table by a parallel corpus prints exactly the entries whose words are in a sentence and its translation, the
NULL word being in every sentence. -/
theorem C274_filter (sv tv : List (W × W × W)) (hsv : VocOk sv) (htv : VocOk tv) (corpus : List (List W × List W))
    (hc : ∀ p ∈ corpus, (∀ w ∈ p.1, Word w) ∧ ∀ w ∈ p.2, Word w) (es : List (W × W × List W))
    (he : ∀ e ∈ es, Word e.1 ∧ Word e.2.1 ∧ ∀ w ∈ e.2.2, Word w) :
    filterLex (sv.map vocLine) (tv.map vocLine) (corpus.map fun p => joinWords p.1) (corpus.map fun p => joinWords p.2) (es.map lexLine) =
      (es.filter fun e => decide (Together sv tv corpus e)).map lexLine := by
  unfold filterLex
  rw [List.filter_map]
  congr 1
  apply List.filter_congr
  intro e hem
  obtain ⟨e1, e2, e3⟩ := he e hem
  have hf : fields ' ' (lexLine e) = e.1 :: e.2.1 :: e.2.2 := by
    unfold lexLine
    apply fields_join
    intro w hw
    rcases List.mem_cons.1 hw with rfl | hw
    · exact e1
    · rcases List.mem_cons.1 hw with rfl | hw
      · exact e2
      · exact e3 w hw
  show decide (vocOf _ ((fields ' ' (lexLine e)).getD 0 []) ++ ' ' :: vocOf _ ((fields ' ' (lexLine e)).getD 1 []) ∈ _) = _
  rw [hf, corpusPairs_eq corpus hc, decide_eq_decide, List.mem_flatMap]
  show (∃ p, p ∈ corpus ∧ vocOf (sv.map vocLine) e.1 ++ ' ' :: vocOf (tv.map vocLine) e.2.1 ∈ pairsOf p.1 p.2) ↔ _
  by_cases h1 : ∃ a ∈ sv, a.1 = e.1
  · obtain ⟨a, ha, hae⟩ := h1
    rw [(vocOf_spec hsv e.1).1 a ha hae]
    have hab : ' ' ∉ a.2.1 := word_blank (hsv.words a ha).2.1
    by_cases h2 : ∃ b ∈ tv, b.1 = e.2.1
    · obtain ⟨b, hb, hbe⟩ := h2
      rw [(vocOf_spec htv e.2.1).1 b hb hbe]
      constructor
      · rintro ⟨p, hp, h⟩
        exact ⟨a, ha, b, hb, hae, hbe, p, hp, (mem_pairsOf (hc p hp).1 hab).1 h⟩
      · rintro ⟨a', ha', b', hb', hae', hbe', p, hp, h⟩
        refine ⟨p, hp, (mem_pairsOf (hc p hp).1 hab).2 ?_⟩
        rw [hsv.one a ha a' ha' (hae.trans hae'.symm), htv.one b hb b' hb' (hbe.trans hbe'.symm)]
        exact h
    · rw [(vocOf_spec htv e.2.1).2 fun b hb hbe => h2 ⟨b, hb, hbe⟩]
      constructor
      · rintro ⟨p, hp, h⟩
        have := (mem_pairsOf (hc p hp).1 hab).1 h
        exact absurd rfl ((hc p hp).2 _ this.2).1
      · rintro ⟨_, _, b, hb, _, hbe, _⟩
        exact absurd ⟨b, hb, hbe⟩ h2
  · rw [(vocOf_spec hsv e.1).2 fun a ha hae => h1 ⟨a, ha, hae⟩]
    constructor
    · rintro ⟨p, hp, h⟩
      have := ((mem_pairsOf (hc p hp).1 (by simp)).1 h).1
      rcases this with h | h
      · cases h
      · exact absurd rfl ((hc p hp).1 _ h).1
    · rintro ⟨a, ha, _, _, hae, _⟩
      exact absurd ⟨a, ha, hae⟩ h1

/-! ### C278 -/

/-- **C278.** Every word that is not in the vocabulary is replaced by `<unk>`, the others stay; a line whose words are all in the vocabulary
does not change. -/
theorem C278_oov (vocfile input : List W) :
    (replaceOov vocfile input).length = input.length ∧
    ∀ (i : Nat) ln, input[i]? = some ln → ∃ out, (replaceOov vocfile input)[i]? = some out ∧
      ((∀ w ∈ fields ' ' ln, Word w) →
        fields ' ' out = (fields ' ' ln).map fun w => if w ∈ vocfile.map (fun v => (fields ' ' v).getD 0 []) then w else "<unk>".toList) ∧
      ((∀ w ∈ fields ' ' ln, w ∈ vocfile.map (fun v => (fields ' ' v).getD 0 [])) → out = ln) := by
  refine ⟨by unfold replaceOov; rw [List.length_map], ?_⟩
  intro i ln h
  refine ⟨oovLine (vocfile.map fun v => (fields ' ' v).getD 0 []) ln, by unfold replaceOov; rw [List.getElem?_map, h]; rfl, ?_, ?_⟩
  · intro hw
    unfold oovLine
    split
    · rename_i hall
      rw [List.all_eq_true] at hall
      conv => lhs; rw [← List.map_id (fields ' ' ln)]
      apply List.map_congr_left
      intro w hwm
      rw [if_pos (of_decide_eq_true (hall w hwm))]; rfl
    · rw [fields_join]
      · rfl
      · intro w hwm
        obtain ⟨v, hv, rfl⟩ := List.mem_map.1 hwm
        by_cases hvm : v ∈ vocfile.map fun v => (fields ' ' v).getD 0 []
        · rw [if_pos hvm]; exact hw v hv
        · rw [if_neg hvm]; exact ⟨by decide, by decide⟩
  · intro hall
    unfold oovLine
    rw [if_pos]
    rw [List.all_eq_true]
    exact fun w hw => decide_eq_true (hall w hw)

end Thot.TextTools
