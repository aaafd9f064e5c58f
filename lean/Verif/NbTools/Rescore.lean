import Verif.NbTools.Basic
/-!
C267: rescoring an n-best list and the best translation.
-/
namespace Thot.NbTools

open Thot
open Thot.SentHandler (joinWords Word fields_join)
open Thot.Awk (fields)
open Thot.PhrTools (leText)

/-! ### Specification -/

/-- An entry of an n-best list: its score, its features, maybe its states, and its translation. -/
structure Entry where
  score : W
  feats : List W
  states : Option (List W)
  trans : List W

/-- The text between two fields. -/
def between : W := " ||| ".toList

/-- The line of an entry. -/
def entryLine (e : Entry) : W :=
  match e.states with
  | none => e.score ++ between ++ joinWords e.feats ++ between ++ joinWords e.trans
  | some s => e.score ++ between ++ joinWords e.feats ++ between ++ joinWords s ++ between ++ joinWords e.trans

/-- Words separated by blanks, none of them `|||`. -/
def Sent (s : List W) : Prop := ∀ w ∈ s, Word w ∧ w ≠ "|||".toList

structure Entry.Ok (e : Entry) : Prop where
  score : Sent [e.score]
  feats : Sent e.feats
  states : ∀ s, e.states = some s → Sent s
  trans : Sent e.trans

/-- The sum of the products. -/
def dot : List Rat → List Rat → Rat
  | [], _ => 0
  | _, [] => 0
  | a :: x, b :: y => a * b + dot x y

/-- The score of an entry with given weights. -/
def scoreOf (num : W → Rat) (ws : List W) (e : Entry) : Rat := dot (ws.map num) (e.feats.map num)

/-- Full statement of C267: for a list whose entries have a value for each weight, the rescored list has the new scores, and the translation
printed is that of an entry with the greatest score, whenever `awk` prints the scores of the entries with their value. -/
def C267_full : Prop := ∀ (num : W → Rat) (conv : Rat → W), (∀ q, Sent [conv q]) → ∀ (ws : List W), Sent ws →
  ∀ (h : W) (es : List Entry), es ≠ [] → (∀ e ∈ es, e.Ok ∧ ws.length ≤ e.feats.length) →
  (∀ e ∈ es, num (conv (scoreOf num ws e)) = scoreOf num ws e) →
  ∃ e ∈ es, bestTrans num conv (joinWords ws) (h :: es.map entryLine) = [joinWords e.trans] ∧
    ∀ e' ∈ es, scoreOf num ws e' ≤ scoreOf num ws e

/-! ### Proof -/

theorem bars_eq : bars = "|||".toList := rfl
theorem between_eq : between = fsep := rfl

theorem sent_words {s : List W} (h : Sent s) : ∀ w ∈ s, Word w := fun w hw => (h w hw).1
theorem sent_bars {s : List W} (h : Sent s) : bars ∉ s := fun hb => (h bars hb).2 rfl
theorem sent_fields {s : List W} (h : Sent s) : fields ' ' (joinWords s) = s := fields_join (sent_words h)

/-- The words of the line of an entry. -/
def entryWords (e : Entry) : List W :=
  match e.states with
  | none => e.score :: bars :: (e.feats ++ bars :: e.trans)
  | some s => e.score :: bars :: (e.feats ++ bars :: (s ++ bars :: e.trans))

theorem fields_entry {e : Entry} (h : e.Ok) : fields ' ' (entryLine e) = entryWords e := by
  have h1 : fields ' ' e.score = [e.score] := fields_word (h.score _ (by simp)).1
  unfold entryLine entryWords
  cases hs : e.states with
  | none =>
    simp only [between_eq]
    rw [fields_fsep, fields_fsep, h1, sent_fields h.feats, sent_fields h.trans]; simp
  | some s =>
    simp only [between_eq]
    rw [fields_fsep, fields_fsep, fields_fsep, h1, sent_fields h.feats, sent_fields h.trans, sent_fields (h.states s hs)]; simp

theorem entry_tail (e : Entry) : ∃ r, entryWords e = e.score :: bars :: (e.feats ++ bars :: r) := by
  unfold entryWords
  cases e.states with
  | none => exact ⟨_, rfl⟩
  | some s => exact ⟨_, rfl⟩

theorem scoreLoop_spec (num : W → Rat) : ∀ (ws fs pre r : List W) (acc : Rat), ws.length ≤ fs.length →
    scoreLoop num (pre ++ fs ++ r) ws pre.length acc = acc + dot (ws.map num) (fs.map num) := by
  intro ws
  induction ws with
  | nil => intro fs pre r acc _; show acc = acc + 0; rw [Rat.add_zero]
  | cons w ws ih =>
    intro fs pre r acc hl
    cases fs with
    | nil => simp at hl
    | cons f fs =>
      show scoreLoop num (pre ++ f :: fs ++ r) ws (pre.length + 1) (acc + num ((pre ++ f :: fs ++ r).getD pre.length []) * num w) = _
      have e : pre ++ f :: fs ++ r = (pre ++ [f]) ++ fs ++ r := by simp
      have h0 : (pre ++ f :: fs ++ r).getD pre.length [] = f := by
        rw [List.getD_eq_getElem?_getD, List.append_assoc, List.getElem?_append_right (Nat.le_refl _)]; simp
      rw [h0, e, show pre.length + 1 = (pre ++ [f]).length by simp, ih fs (pre ++ [f]) r _ (by simpa using hl)]
      show _ = acc + (num w * num f + dot (ws.map num) (fs.map num))
      grind

theorem newScore_spec (num : W → Rat) {ws : List W} (hw : Sent ws) {e : Entry} (h : e.Ok) (hl : ws.length ≤ e.feats.length) :
    newScore num (joinWords ws) (fields ' ' (entryLine e)) = scoreOf num ws e := by
  obtain ⟨r, hr⟩ := entry_tail e
  rw [fields_entry h, hr]
  unfold newScore scoreOf
  rw [sent_fields hw]
  have := scoreLoop_spec num ws e.feats [e.score, bars] (bars :: r) 0 hl
  rw [Rat.zero_add] at this
  rw [← this]; rfl

/-- The entry with another score. -/
def withScore (e : Entry) (s : W) : Entry := { e with score := s }

/-- The line with a blank less if there is no translation. -/
def wordsLine (e : Entry) : W := joinWords (entryWords e)

theorem rescoreLine_spec (num : W → Rat) (conv : Rat → W) {ws : List W} (hw : Sent ws) {e : Entry} (h : e.Ok)
    (hl : ws.length ≤ e.feats.length) :
    rescoreLine num conv (joinWords ws) (entryLine e) = wordsLine (withScore e (conv (scoreOf num ws e))) := by
  unfold rescoreLine
  rw [newScore_spec num hw h hl, fields_entry h]
  unfold wordsLine entryWords withScore
  cases e.states <;> rfl

/-! ### The numbers -/

theorem takeWhile_blank (p : Char → Bool) (hp : p ' ' = false) (w r : W) : (w ++ ' ' :: r).takeWhile p = w.takeWhile p := by
  induction w with
  | nil => rw [List.nil_append, List.takeWhile_cons_of_neg (by simp [hp])]; rfl
  | cons c w ih =>
    rw [List.cons_append]
    by_cases h : p c = true
    · rw [List.takeWhile_cons_of_pos h, List.takeWhile_cons_of_pos h, ih]
    · rw [List.takeWhile_cons_of_neg h, List.takeWhile_cons_of_neg h]

theorem dropWhile_blank (p : Char → Bool) (hp : p ' ' = false) (w r : W) :
    (w ++ ' ' :: r).dropWhile p = w.dropWhile p ++ ' ' :: r := by
  induction w with
  | nil => rw [List.nil_append, List.dropWhile_cons_of_neg (by simp [hp])]; rfl
  | cons c w ih =>
    rw [List.cons_append]
    by_cases h : p c = true
    · rw [List.dropWhile_cons_of_pos h, List.dropWhile_cons_of_pos h, ih]
    · rw [List.dropWhile_cons_of_neg h, List.dropWhile_cons_of_neg h]; rfl

theorem magnitude_blank (w r : W) : magnitude (w ++ ' ' :: r) = magnitude w := by
  unfold magnitude digits
  rw [dropWhile_blank _ (by decide), takeWhile_blank _ (by decide)]
  cases w.dropWhile isDigit with
  | nil => rfl
  | cons c t =>
    rw [List.cons_append]
    by_cases hc : c = '.'
    · subst hc
      simp only [takeWhile_blank _ (show isDigit ' ' = false by decide)]
    · split
      · next h => injection h with h _; exact absurd h hc
      · split
        · next h => injection h with h _; exact absurd h hc
        · rfl

theorem sortNum_blank {w : W} (h : Word w) (r : W) : sortNum (w ++ ' ' :: r) = sortNum w := by
  unfold sortNum
  cases w with
  | nil => exact absurd rfl h.1
  | cons c t =>
    have hc : ¬ ((fun c : Char => c == ' ') c = true) := by simpa using (h.2 c List.mem_cons_self).1
    rw [List.cons_append, List.dropWhile_cons_of_neg (p := fun c : Char => c == ' ') hc, List.dropWhile_cons_of_neg (p := fun c : Char => c == ' ') hc]
    by_cases hm : c = '-'
    · subst hm; simp only [magnitude_blank]
    · split
      · next h => injection h with h _; exact absurd h hm
      · split
        · next h => injection h with h _; exact absurd h hm
        · exact magnitude_blank (c :: t) r

theorem sortNum_line {e : Entry} (h : Word e.score) : sortNum (wordsLine e) = sortNum e.score := by
  unfold wordsLine
  obtain ⟨r, hr⟩ := entry_tail e
  rw [hr]
  exact sortNum_blank h _

/-! ### The order -/

theorem leText_refl : ∀ a : W, leText a a = true := by
  intro a
  induction a with
  | nil => rfl
  | cons c a ih =>
    rw [leText]; split
    · rfl
    · rw [if_pos rfl]; exact ih

theorem char_lt_irrefl (a : Char) : ¬ a < a := fun h => UInt32.lt_irrefl _ h
theorem char_lt_trans {a b c : Char} (h1 : a < b) (h2 : b < c) : a < c := UInt32.lt_trans h1 h2
theorem char_lt_asymm {a b : Char} (h1 : a < b) : ¬ b < a := fun h2 => char_lt_irrefl a (char_lt_trans h1 h2)
theorem char_tri (a b : Char) : a < b ∨ a = b ∨ b < a := by
  rcases UInt32.lt_or_lt_of_ne (a := a.val) (b := b.val) with h
  by_cases he : a = b
  · exact Or.inr (Or.inl he)
  · have : a.val ≠ b.val := fun hv => he (Char.ext hv)
    rcases h this with h | h
    · exact Or.inl h
    · exact Or.inr (Or.inr h)

theorem leText_total : ∀ a b : W, leText a b = true ∨ leText b a = true := by
  intro a
  induction a with
  | nil => intro b; exact Or.inl (by unfold leText; rfl)
  | cons c a ih =>
    intro b
    cases b with
    | nil => exact Or.inr (by unfold leText; rfl)
    | cons d b =>
      rw [leText, leText]
      rcases char_tri c d with h | rfl | h
      · left; rw [if_pos h]
      · rw [if_neg (char_lt_irrefl c), if_pos rfl, if_neg (char_lt_irrefl c), if_pos rfl]; exact ih b
      · right; rw [if_pos h]

theorem leText_trans : ∀ a b c : W, leText a b = true → leText b c = true → leText a c = true := by
  intro a
  induction a with
  | nil => intro b c _ _; unfold leText; rfl
  | cons x a ih =>
    intro b c h1 h2
    cases b with
    | nil => cases h1
    | cons y b =>
      cases c with
      | nil => cases h2
      | cons z c =>
        rw [leText] at h1 h2 ⊢
        by_cases hxy : x < y
        · by_cases hyz : y < z
          · rw [if_pos (char_lt_trans hxy hyz)]
          · rw [if_neg hyz] at h2
            by_cases e : y = z
            · subst e; rw [if_pos hxy]
            · rw [if_neg e] at h2; cases h2
        · rw [if_neg hxy] at h1
          by_cases e : x = y
          · subst e
            rw [if_pos rfl] at h1
            by_cases hyz : x < z
            · rw [if_pos hyz]
            · rw [if_neg hyz] at h2 ⊢
              by_cases e : x = z
              · rw [if_pos e] at h2 ⊢; exact ih _ _ h1 h2
              · rw [if_neg e] at h2; cases h2
          · rw [if_neg e] at h1; cases h1

theorem nrLe_iff (a b : W) : nrLe a b = true ↔ sortNum b < sortNum a ∨ (sortNum a = sortNum b ∧ leText a b = true) := by
  unfold nrLe
  rw [Bool.or_eq_true, Bool.and_eq_true, decide_eq_true_iff, decide_eq_true_iff]

theorem nrLe_trans (a b c : W) (h1 : nrLe a b = true) (h2 : nrLe b c = true) : nrLe a c = true := by
  rw [nrLe_iff] at *
  rcases h1 with h1 | ⟨h1, k1⟩ <;> rcases h2 with h2 | ⟨h2, k2⟩
  · left; grind
  · left; grind
  · left; grind
  · right; exact ⟨h1.trans h2, leText_trans _ _ _ k1 k2⟩

theorem nrLe_total (a b : W) : (nrLe a b || nrLe b a) = true := by
  rw [Bool.or_eq_true, nrLe_iff, nrLe_iff]
  by_cases h : sortNum a = sortNum b
  · rcases leText_total a b with k | k
    · exact Or.inl (Or.inr ⟨h, k⟩)
    · exact Or.inr (Or.inr ⟨h.symm, k⟩)
  · by_cases h1 : sortNum b < sortNum a
    · exact Or.inl (Or.inl h1)
    · right; left; grind

/-! ### The translation -/

theorem getTrans_spec {e : Entry} (he : ∀ w ∈ entryWords e, Word w) (h : Sent e.trans) : getTrans (wordsLine e) = joinWords e.trans := by
  unfold getTrans wordsLine
  rw [fields_join he]
  have hsplit : ∃ p, entryWords e = p ++ bars :: e.trans := by
    unfold entryWords
    cases e.states with
    | none => exact ⟨e.score :: bars :: e.feats, by simp⟩
    | some s => exact ⟨e.score :: bars :: (e.feats ++ bars :: s), by simp⟩
  obtain ⟨p, hp⟩ := hsplit
  rw [hp, List.reverse_append, List.reverse_cons, List.append_assoc, List.takeWhile_append_of_pos]
  · rw [List.singleton_append, List.takeWhile_cons_of_neg (by simp), List.append_nil, List.reverse_reverse]
  · intro w hw
    rw [decide_eq_true_iff]
    rintro rfl
    exact sent_bars h (List.mem_reverse.1 hw)

theorem words_withScore {e : Entry} (h : e.Ok) {s : W} (hs : Word s) : ∀ w ∈ entryWords (withScore e s), Word w := by
  intro w hw
  unfold entryWords withScore at hw
  cases hst : e.states with
  | none =>
    rw [hst] at hw
    simp only [List.mem_cons, List.mem_append] at hw
    rcases hw with rfl | rfl | hw | rfl | hw
    · exact hs
    · exact word_bars
    · exact (h.feats w hw).1
    · exact word_bars
    · exact (h.trans w hw).1
  | some st =>
    rw [hst] at hw
    simp only [List.mem_cons, List.mem_append] at hw
    rcases hw with rfl | rfl | hw | rfl | hw | rfl | hw
    · exact hs
    · exact word_bars
    · exact (h.feats w hw).1
    · exact word_bars
    · exact (h.states st hst w hw).1
    · exact word_bars
    · exact (h.trans w hw).1

/-- **C267 (partial).** The rescored list has the weights as header and each entry with the weighted sum of its features as score. The
translation printed is that of an entry whose score, as printed by `awk` and read by `sort -n`, is the greatest; it is an entry with the
greatest score if the scores are printed as `sort -n` reads them. Missing: scores printed with an exponent or rounded (counterexample). -/
theorem C267_best_partial (num : W → Rat) (conv : Rat → W) (hc : ∀ q, Sent [conv q]) (ws : List W) (hw : Sent ws) (h : W)
    (es : List Entry) (hes : ∀ e ∈ es, e.Ok ∧ ws.length ≤ e.feats.length) :
    rescore num conv (joinWords ws) (h :: es.map entryLine) =
      ("# ".toList ++ joinWords ws) :: es.map (fun e => wordsLine (withScore e (conv (scoreOf num ws e)))) ∧
    (es = [] → bestTrans num conv (joinWords ws) (h :: es.map entryLine) = []) ∧
    (es ≠ [] → ∃ e ∈ es, bestTrans num conv (joinWords ws) (h :: es.map entryLine) = [joinWords e.trans] ∧
      (∀ e' ∈ es, sortNum (conv (scoreOf num ws e')) ≤ sortNum (conv (scoreOf num ws e))) ∧
      ((∀ e' ∈ es, sortNum (conv (scoreOf num ws e')) = scoreOf num ws e') → ∀ e' ∈ es, scoreOf num ws e' ≤ scoreOf num ws e)) := by
  have hr : rescore num conv (joinWords ws) (h :: es.map entryLine) =
      ("# ".toList ++ joinWords ws) :: es.map (fun e => wordsLine (withScore e (conv (scoreOf num ws e)))) := by
    show _ :: (es.map entryLine).map (rescoreLine num conv (joinWords ws)) = _
    rw [List.map_map]
    congr 1
    apply List.map_congr_left
    intro e he
    exact rescoreLine_spec num conv hw (hes e he).1 (hes e he).2
  refine ⟨hr, ?_, ?_⟩
  · rintro rfl
    unfold bestTrans
    rw [hr, List.tail_cons, List.map_nil, List.mergeSort_nil]; rfl
  · intro hne
    unfold bestTrans
    rw [hr, List.tail_cons]
    generalize hL : es.map (fun e => wordsLine (withScore e (conv (scoreOf num ws e)))) = L
    have hperm := List.mergeSort_perm L nrLe
    have hsort := List.pairwise_mergeSort nrLe_trans nrLe_total L
    cases hS : L.mergeSort nrLe with
    | nil =>
      rw [hS] at hperm
      rw [List.nil_perm] at hperm
      rw [hperm] at hL
      exact absurd (List.map_eq_nil_iff.1 hL) hne
    | cons l S =>
      rw [hS] at hperm hsort
      have hl : l ∈ L := hperm.mem_iff.1 List.mem_cons_self
      rw [← hL] at hl
      obtain ⟨e, he, hle⟩ := List.mem_map.1 hl
      have hw1 : ∀ q, Word (conv q) := fun q => (hc q _ (by simp)).1
      have hmax : ∀ e' ∈ es, sortNum (conv (scoreOf num ws e')) ≤ sortNum (conv (scoreOf num ws e)) := by
        intro e' he'
        have hm : wordsLine (withScore e' (conv (scoreOf num ws e'))) ∈ l :: S := by
          rw [hperm.mem_iff, ← hL]
          exact List.mem_map.2 ⟨e', he', rfl⟩
        have hle' : sortNum (wordsLine (withScore e' (conv (scoreOf num ws e')))) ≤ sortNum l := by
          rcases List.mem_cons.1 hm with hm | hm
          · rw [hm]; exact Rat.le_refl
          · have := (List.pairwise_cons.1 hsort).1 _ hm
            rw [nrLe_iff] at this
            rcases this with this | ⟨this, _⟩
            · exact Rat.le_of_lt this
            · rw [this]; exact Rat.le_refl
        rw [← hle, sortNum_line (hw1 _), sortNum_line (hw1 _)] at hle'
        exact hle'
      refine ⟨e, he, ?_, hmax, ?_⟩
      · show [getTrans l] = _
        rw [← hle, getTrans_spec (words_withScore (hes e he).1 (hw1 _)) (hes e he).1.trans]
        rfl
      · intro hx e' he'
        rw [← hx e he, ← hx e' he']
        exact hmax e' he'

/-! ### Counterexample -/

def exNum (w : W) : Rat := if w = "1e-05".toList then 1 / 100000 else if w = "0.5".toList then 1 / 2 else w.length
def exConv (q : Rat) : W := if q = 1 / 100000 then "1e-05".toList else if q = 1 / 2 then "0.5".toList else ['0']

def exE1 : Entry := ⟨['0'], ["1e-05".toList], none, [['a']]⟩
def exE2 : Entry := ⟨['0'], ["0.5".toList], none, [['b']]⟩

theorem sent_dec {s : List W} (h : ∀ w ∈ s, (w ≠ [] ∧ ∀ c ∈ w, c ≠ ' ' ∧ c ≠ '\n' ∧ c ≠ '\x00') ∧ w ≠ "|||".toList) : Sent s := h

theorem ex_ok1 : exE1.Ok := ⟨sent_dec (by decide), sent_dec (by decide), (by intro s h; cases h), sent_dec (by decide)⟩
theorem ex_ok2 : exE2.Ok := ⟨sent_dec (by decide), sent_dec (by decide), (by intro s h; cases h), sent_dec (by decide)⟩

theorem ex_conv : ∀ q, Sent [exConv q] := by
  intro q
  unfold exConv
  split
  · exact sent_dec (by decide)
  · split <;> exact sent_dec (by decide)

/-- **C267 is false of the code**: `awk` prints `0.00001` as `1e-05`, which `sort -n` takes for one. -/
theorem C267_counterexample : ¬ C267_full := by
  intro hf
  have hs : ∀ e ∈ [exE1, exE2], exNum (exConv (scoreOf exNum [['1']] e)) = scoreOf exNum [['1']] e := by decide +kernel
  obtain ⟨e, he, h1, h2⟩ := hf exNum exConv ex_conv [['1']] (sent_dec (by decide)) [] [exE1, exE2] (by simp)
    (by intro e he
        simp only [List.mem_cons, List.not_mem_nil, or_false] at he
        rcases he with rfl | rfl
        · exact ⟨ex_ok1, by decide⟩
        · exact ⟨ex_ok2, by decide⟩) hs
  obtain ⟨e', he', k1, k2, _⟩ := (C267_best_partial exNum exConv ex_conv [['1']] (sent_dec (by decide)) [] [exE1, exE2]
    (by intro e he
        simp only [List.mem_cons, List.not_mem_nil, or_false] at he
        rcases he with rfl | rfl
        · exact ⟨ex_ok1, by decide⟩
        · exact ⟨ex_ok2, by decide⟩)).2.2 (by simp)
  rw [k1] at h1
  simp only [List.mem_cons, List.not_mem_nil, or_false] at he he'
  have hlt : ¬ (scoreOf exNum [['1']] exE2 ≤ scoreOf exNum [['1']] exE1) := by decide +kernel
  have hlt2 : ¬ (sortNum (exConv (scoreOf exNum [['1']] exE1)) ≤ sortNum (exConv (scoreOf exNum [['1']] exE2))) := by decide +kernel
  rcases he with rfl | rfl
  · exact hlt (h2 exE2 (by simp))
  · rcases he' with rfl | rfl
    · exact absurd h1 (by decide)
    · exact hlt2 (k2 exE1 (by simp))

/-- Two features, with states. -/
example : Entry.Ok ⟨"-3".toList, ["1".toList, "-0.5".toList], some ["0->1".toList, "1->3".toList], ["the".toList, "house".toList]⟩ :=
  ⟨sent_dec (by decide), sent_dec (by decide), by intro s h; cases h; exact sent_dec (by decide), sent_dec (by decide)⟩

example : sortNum "-12.50 ||| x".toList = -25 / 2 := by decide +kernel

end Thot.NbTools
