import Verif.PhrTools.Merge
/-!
C238: merging the tables of the chunks.
-/
namespace Thot.PhrTools

open Thot
open Thot.Sum (sumBy)
open Thot.SentHandler (joinWords Word fields_join)
open Thot.Awk (fields)
open Thot.Vocab (showNat)

/-! ### Specification -/

/-- A phrase: at least one word, none of them the separator. -/
def Phrase (p : List Str) : Prop := p ≠ [] ∧ ∀ w ∈ p, Word w ∧ w ≠ "|||".toList

/-- The table of a chunk: every pair of phrases once, and the count of a source phrase in all its entries. -/
structure ChunkTable (num : Str → Rat) (tab : List Entry) : Prop where
  src : ∀ e ∈ tab, Phrase e.src
  trg : ∀ e ∈ tab, Phrase e.trg
  cs : ∀ e ∈ tab, Word e.cs
  cst : ∀ e ∈ tab, Word e.cst
  once : tab.Pairwise fun a b => ¬ (a.src = b.src ∧ a.trg = b.trg)
  same : ∀ a ∈ tab, ∀ b ∈ tab, a.src = b.src → num a.cs = num b.cs

/-- The count of a source phrase in a table. -/
def csIn (num : Str → Rat) (s : List Str) (tab : List Entry) : Rat :=
  match tab.find? fun e => decide (e.src = s) with
  | some e => num e.cs
  | none => 0

/-- The count of a pair of phrases in a table. -/
def cstIn (num : Str → Rat) (s t : List Str) (tab : List Entry) : Rat :=
  match tab.find? fun e => decide (e.src = s ∧ e.trg = t) with
  | some e => num e.cst
  | none => 0

/-- The text of an entry of the merged table. -/
def tableLine (s t : List Str) (cs cst : Str) : Str := joinWords s ++ " ||| ".toList ++ joinWords t ++ " ||| ".toList ++ cs ++ " ".toList ++ cst

/-! ### Parsing -/

/-- A line of the file `counts`. -/
abbrev Item := Nat × Entry

def words (i : Item) : List Str := i.2.src ++ sep :: i.2.trg ++ [sep, i.2.cs, i.2.cst, showNat i.1]

def lineOf (i : Item) : Str := countLine i.1 (entryLine i.2)

structure ItemOk (i : Item) : Prop where
  src : Phrase i.2.src
  trg : Phrase i.2.trg
  cs : Word i.2.cs
  cst : Word i.2.cst

theorem word_sep : Word sep := ⟨by decide, by decide⟩

theorem lineOf_eq (i : Item) : lineOf i = joinWords (words i) := by
  unfold lineOf countLine entryLine words
  have : i.2.src ++ sep :: i.2.trg ++ [sep, i.2.cs, i.2.cst, showNat i.1] = (i.2.src ++ sep :: i.2.trg ++ [sep, i.2.cs, i.2.cst]) ++ [showNat i.1] := by simp
  rw [this, join_append (i.2.src ++ sep :: i.2.trg ++ [sep, i.2.cs, i.2.cst]) [showNat i.1] (by simp) (by simp)]
  rfl

theorem words_ok {i : Item} (h : ItemOk i) : ∀ w ∈ words i, Word w := by
  intro w hw
  unfold words at hw
  rw [List.append_assoc, List.mem_append] at hw
  rcases hw with hw | hw
  · exact (h.src.2 w hw).1
  · rw [List.cons_append, List.mem_cons, List.mem_append] at hw
    rcases hw with rfl | hw | hw
    · exact word_sep
    · exact (h.trg.2 w hw).1
    · simp only [List.mem_cons, List.not_mem_nil, or_false] at hw
      rcases hw with rfl | rfl | rfl | rfl
      · exact word_sep
      · exact h.cs
      · exact h.cst
      · exact AligFile.word_showNat i.1

theorem fields_line {i : Item} (h : ItemOk i) : fields ' ' (lineOf i) = words i := by
  rw [lineOf_eq, fields_join (words_ok h)]

theorem sep_eq : sep = "|||".toList := rfl

theorem take_sep {l r : List Str} (h : ∀ w ∈ l, w ≠ sep) :
    (l ++ sep :: r).takeWhile (fun w => decide (w ≠ sep)) = l ∧ (l ++ sep :: r).dropWhile (fun w => decide (w ≠ sep)) = sep :: r := by
  induction l with
  | nil => simp
  | cons a l ih =>
    obtain ⟨h1, h2⟩ := ih fun w hw => h w (List.mem_cons_of_mem _ hw)
    have ha := h a List.mem_cons_self
    rw [List.cons_append, List.takeWhile_cons_of_pos (by simpa using ha), List.dropWhile_cons_of_pos (by simpa using ha), h1, h2]
    exact ⟨rfl, rfl⟩

theorem src_words {i : Item} (h : ItemOk i) : srcOf (words i) = joinWords i.2.src ∧
    restOf (words i) = i.2.trg ++ [sep, i.2.cs, i.2.cst, showNat i.1] := by
  obtain ⟨hne, hw⟩ := h.src
  unfold srcOf restOf words
  cases hs : i.2.src with
  | nil => exact absurd hs hne
  | cons a l =>
    have hl : ∀ w ∈ l, w ≠ sep := fun w hw' => (hw w (by rw [hs]; exact List.mem_cons_of_mem _ hw')).2
    rw [List.cons_append, List.cons_append, List.tail_cons, List.headD_cons, List.append_assoc, List.cons_append, (take_sep hl).1, (take_sep hl).2]
    exact ⟨rfl, rfl⟩

theorem trg_words {i : Item} (h : ItemOk i) : trgOf (words i) = joinWords i.2.trg := by
  unfold trgOf
  rw [(src_words h).2]
  obtain ⟨hne, _⟩ := h.trg
  cases ht : i.2.trg with
  | nil => exact absurd ht hne
  | cons a l => simp

theorem end_words (i : Item) : fromEnd (words i) 0 = showNat i.1 ∧ fromEnd (words i) 1 = i.2.cst ∧ fromEnd (words i) 2 = i.2.cs := by
  have : ∀ (l : List Str) (a b c d : Str), fromEnd (l ++ [a, b, c, d]) 0 = d ∧ fromEnd (l ++ [a, b, c, d]) 1 = c ∧ fromEnd (l ++ [a, b, c, d]) 2 = b := by
    intro l a b c d
    unfold fromEnd
    simp only [List.length_append, List.length_cons, List.length_nil]
    refine ⟨?_, ?_, ?_⟩
    · rw [show l.length + (0 + 1 + 1 + 1 + 1) - 1 - 0 = l.length + 3 by omega]; simp [List.getD_eq_getElem?_getD]
    · rw [show l.length + (0 + 1 + 1 + 1 + 1) - 1 - 1 = l.length + 2 by omega]; simp [List.getD_eq_getElem?_getD]
    · rw [show l.length + (0 + 1 + 1 + 1 + 1) - 1 - 2 = l.length + 1 by omega]; simp [List.getD_eq_getElem?_getD]
  exact this _ _ _ _ _

/-! ### The order -/

theorem prefix_words {us : List Str} {i : Item} (hi : ItemOk i) (hu : ∀ u ∈ us, Word u) (hne : us ≠ [])
    (h : (joinWords us ++ [' ']) <+: lineOf i) : ∃ r, words i = us ++ r := by
  obtain ⟨r, hr⟩ := h
  have := fields_line hi
  rw [← hr, List.append_assoc] at this
  have h2 := fields_prefix us hu hne r
  rw [show (joinWords us ++ ([' '] ++ r)) = joinWords us ++ ' ' :: r from rfl, h2] at this
  exact ⟨_, this.symm⟩

theorem sep_unique {a b r r' : List Str} (ha : ∀ w ∈ a, w ≠ sep) (hb : ∀ w ∈ b, w ≠ sep) (h : a ++ sep :: r = b ++ sep :: r') : a = b ∧ r = r' := by
  have h1 := (take_sep (r := r) ha).1
  have h2 := (take_sep (r := r) ha).2
  rw [h, (take_sep hb).1] at h1
  rw [h, (take_sep hb).2] at h2
  injection h2 with _ h2
  exact ⟨h1.symm, h2.symm⟩

theorem contig_src {E : List Item} (hok : ∀ i ∈ E, ItemOk i) (hs : (E.map lineOf).Pairwise fun x y => leText x y = true) :
    Contig (fun i : Item => i.2.src) E := by
  intro a b c hsub hk
  have hp := (List.pairwise_map.1 hs).sublist hsub
  have hab : leText (lineOf a) (lineOf b) = true := (List.pairwise_cons.1 hp).1 b (by simp)
  have hbc : leText (lineOf b) (lineOf c) = true := (List.pairwise_cons.1 (List.pairwise_cons.1 hp).2).1 c (by simp)
  have ha := hok a (hsub.subset (by simp))
  have hb := hok b (hsub.subset (by simp))
  have hc := hok c (hsub.subset (by simp))
  have hpre : ∀ i : Item, (joinWords (i.2.src ++ [sep]) ++ [' ']) <+: lineOf i := by
    intro i
    rw [lineOf_eq]
    refine ⟨joinWords (i.2.trg ++ [sep, i.2.cs, i.2.cst, showNat i.1]), ?_⟩
    have : words i = (i.2.src ++ [sep]) ++ (i.2.trg ++ [sep, i.2.cs, i.2.cst, showNat i.1]) := by unfold words; simp
    rw [this, join_append (i.2.src ++ [sep]) (i.2.trg ++ [sep, i.2.cs, i.2.cst, showNat i.1]) (by simp) (by simp), List.append_assoc]
    rfl
  have h1 := hpre a
  have h2 := hpre c
  simp only at hk
  rw [← hk] at h2
  have h3 := prefix_between h1 h2 hab hbc
  obtain ⟨r, hr⟩ := prefix_words hb (by
    intro u hu
    rw [List.mem_append] at hu
    rcases hu with hu | hu
    · exact (ha.src.2 u hu).1
    · rw [List.mem_singleton] at hu; rw [hu]; exact word_sep) (by simp) h3
  unfold words at hr
  rw [List.append_assoc, List.append_assoc] at hr
  exact (sep_unique (fun w hw => (hb.src.2 w hw).2) (fun w hw => (ha.src.2 w hw).2) hr).1

theorem contig_pair {E : List Item} (hok : ∀ i ∈ E, ItemOk i) (hs : (E.map lineOf).Pairwise fun x y => leText x y = true) :
    Contig (fun i : Item => (i.2.src, i.2.trg)) E := by
  intro a b c hsub hk
  have hp := (List.pairwise_map.1 hs).sublist hsub
  have hab : leText (lineOf a) (lineOf b) = true := (List.pairwise_cons.1 hp).1 b (by simp)
  have hbc : leText (lineOf b) (lineOf c) = true := (List.pairwise_cons.1 (List.pairwise_cons.1 hp).2).1 c (by simp)
  have ha := hok a (hsub.subset (by simp))
  have hb := hok b (hsub.subset (by simp))
  have hpre : ∀ i : Item, (joinWords (i.2.src ++ sep :: i.2.trg ++ [sep]) ++ [' ']) <+: lineOf i := by
    intro i
    rw [lineOf_eq]
    refine ⟨joinWords [i.2.cs, i.2.cst, showNat i.1], ?_⟩
    have : words i = (i.2.src ++ sep :: i.2.trg ++ [sep]) ++ [i.2.cs, i.2.cst, showNat i.1] := by unfold words; simp
    rw [this, join_append (i.2.src ++ sep :: i.2.trg ++ [sep]) [i.2.cs, i.2.cst, showNat i.1] (by simp) (by simp), List.append_assoc]
    rfl
  have h1 := hpre a
  have h2 := hpre c
  simp only [Prod.mk.injEq] at hk
  rw [← hk.1, ← hk.2] at h2
  have h3 := prefix_between h1 h2 hab hbc
  obtain ⟨r, hr⟩ := prefix_words hb (by
    intro u hu
    rw [List.append_assoc, List.mem_append, List.cons_append, List.mem_cons, List.mem_append, List.mem_singleton] at hu
    rcases hu with hu | rfl | hu | rfl
    · exact (ha.src.2 u hu).1
    · exact word_sep
    · exact (ha.trg.2 u hu).1
    · exact word_sep) (by simp) h3
  unfold words at hr
  simp only [List.append_assoc, List.cons_append] at hr
  obtain ⟨e1, e2⟩ := sep_unique (fun w hw => (hb.src.2 w hw).2) (fun w hw => (ha.src.2 w hw).2) hr
  have e3 := (sep_unique (fun w hw => (hb.trg.2 w hw).2) (fun w hw => (ha.trg.2 w hw).2) e2).1
  simp only [e1, e3]

/-! ### The loops -/

section
variable (fmt : Rat → Str) (num : Str → Rat)

/-- The chunks seen and the sum of the counts of the source phrase. -/
def cc (g : List Item) : List Str × Rat :=
  g.foldl (fun st i => if showNat i.1 ∈ st.1 then st else (showNat i.1 :: st.1, st.2 + num i.2.cs)) ([], 0)

/-- The state after the entries of a group. -/
def gstate (s : List Str) (g : List Item) : MState :=
  { first := some (joinWords s), grp := g.map fun i => (joinWords i.2.trg, num i.2.cst), chunks := (cc num g).1, cnt := (cc num g).2 }

theorem gstate_add (s : List Str) (g : List Item) {i : Item} (hi : ItemOk i) :
    addChunk num (words i) { gstate num s g with grp := (gstate num s g).grp ++ [(trgOf (words i), num (fromEnd (words i) 1))] } = gstate num s (g ++ [i]) := by
  obtain ⟨e0, e1, e2⟩ := end_words i
  unfold addChunk
  rw [trg_words hi, e0, e1, e2]
  have hcc : cc num (g ++ [i]) = if showNat i.1 ∈ (cc num g).1 then cc num g else (showNat i.1 :: (cc num g).1, (cc num g).2 + num i.2.cs) := by
    unfold cc; rw [List.foldl_append]; rfl
  unfold gstate
  rw [hcc]
  simp only [List.map_append, List.map_cons, List.map_nil]
  split <;> rfl

theorem gstate_new {i : Item} (hi : ItemOk i) : addChunk num (words i) (newGroup num (words i)) = gstate num i.2.src [i] := by
  have := gstate_add num i.2.src [] hi
  rw [List.nil_append] at this
  rw [← this]
  unfold newGroup gstate
  rw [(src_words hi).1]
  rfl

theorem mergeLoop_runs : ∀ (l : List Item) (s : List Str) (g : List Item), (∀ w ∈ s, Word w) → (∀ i ∈ l, ItemOk i) →
    mergeLoop fmt num (gstate num s g) (l.map lineOf) =
      printCounts fmt (gstate num s (g ++ l.takeWhile fun i => decide (i.2.src = s))) ++
      (runs (fun i : Item => i.2.src) (l.dropWhile fun i => decide (i.2.src = s))).flatMap fun p => printCounts fmt (gstate num p.1 p.2) := by
  intro l
  induction l with
  | nil =>
    intro s g _ _
    simp [mergeLoop, runs]
  | cons i l ih =>
    intro s g hs hok
    have hi := hok i List.mem_cons_self
    have hl := fun j hj => hok j (List.mem_cons_of_mem i hj)
    rw [List.map_cons]
    show (if joinWords s ≠ srcOf (fields ' ' (lineOf i)) then
        printCounts fmt (gstate num s g) ++ mergeLoop fmt num (addChunk num (fields ' ' (lineOf i)) (newGroup num (fields ' ' (lineOf i)))) (l.map lineOf)
      else
        mergeLoop fmt num (addChunk num (fields ' ' (lineOf i))
          { gstate num s g with grp := (gstate num s g).grp ++ [(trgOf (fields ' ' (lineOf i)), num (fromEnd (fields ' ' (lineOf i)) 1))] }) (l.map lineOf)) = _
    rw [fields_line hi, (src_words hi).1, gstate_add num s g hi, gstate_new num hi]
    by_cases he : i.2.src = s
    · rw [if_neg (fun hc => hc (by rw [he])), List.takeWhile_cons_of_pos (by simpa using he), List.dropWhile_cons_of_pos (by simpa using he), ih s _ hs hl]
      simp
    · rw [if_pos (show joinWords s ≠ joinWords i.2.src from fun hc => he (join_inj (fun u hu => (hi.src.2 u hu).1) hs hc.symm)),
        List.takeWhile_cons_of_neg (by simpa using he), List.dropWhile_cons_of_neg (by simpa using he),
        ih i.2.src [i] (fun u hu => (hi.src.2 u hu).1) hl]
      rw [show runs (fun i : Item => i.2.src) (i :: l) = (i.2.src, i :: l.takeWhile fun b => decide (b.2.src = i.2.src)) ::
        runs (fun i : Item => i.2.src) (l.dropWhile fun b => decide (b.2.src = i.2.src)) by rw [runs], List.flatMap_cons]
      simp

theorem mergeCounts_runs {E : List Item} (hne : E ≠ []) (hok : ∀ i ∈ E, ItemOk i) :
    mergeCounts fmt num (E.map lineOf) = (runs (fun i : Item => i.2.src) E).flatMap fun p => printCounts fmt (gstate num p.1 p.2) := by
  cases E with
  | nil => exact absurd rfl hne
  | cons i l =>
    have hi := hok i List.mem_cons_self
    rw [List.map_cons]
    show mergeLoop fmt num (addChunk num (fields ' ' (lineOf i)) (newGroup num (fields ' ' (lineOf i)))) (l.map lineOf) = _
    rw [fields_line hi, gstate_new num hi, mergeLoop_runs fmt num l i.2.src [i] (fun u hu => (hi.src.2 u hu).1) fun j hj => hok j (List.mem_cons_of_mem _ hj)]
    rw [show runs (fun i : Item => i.2.src) (i :: l) = (i.2.src, i :: l.takeWhile fun b => decide (b.2.src = i.2.src)) ::
        runs (fun i : Item => i.2.src) (l.dropWhile fun b => decide (b.2.src = i.2.src)) by rw [runs], List.flatMap_cons]
    rfl

theorem printLoop_runs (s : Str) (cs : Rat) : ∀ (l : List Item) (t : List Str) (c : Rat), (∀ w ∈ t, Word w) → (∀ i ∈ l, ItemOk i) →
    printLoop fmt s cs (joinWords t) c (l.map fun i => (joinWords i.2.trg, num i.2.cst)) =
      outLine fmt s (joinWords t) cs (c + sumBy (fun i => num i.2.cst) (l.takeWhile fun i => decide (i.2.trg = t))) ::
      (runs (fun i : Item => i.2.trg) (l.dropWhile fun i => decide (i.2.trg = t))).map fun p => outLine fmt s (joinWords p.1) cs (sumBy (fun i => num i.2.cst) p.2) := by
  intro l
  induction l with
  | nil => intro t c _ _; simp [printLoop, runs, Sum.sumBy_nil, Rat.add_zero]
  | cons i l ih =>
    intro t c ht hok
    have hi := hok i List.mem_cons_self
    have hl := fun j hj => hok j (List.mem_cons_of_mem i hj)
    rw [List.map_cons]
    show (if joinWords t = joinWords i.2.trg then printLoop fmt s cs (joinWords t) (c + num i.2.cst) (l.map fun i => (joinWords i.2.trg, num i.2.cst))
      else outLine fmt s (joinWords t) cs c :: printLoop fmt s cs (joinWords i.2.trg) (num i.2.cst) (l.map fun i => (joinWords i.2.trg, num i.2.cst))) = _
    by_cases he : i.2.trg = t
    · rw [if_pos (by rw [he]), List.takeWhile_cons_of_pos (by simpa using he), List.dropWhile_cons_of_pos (by simpa using he), ih t _ ht hl,
        Sum.sumBy_cons, Rat.add_assoc]
    · rw [if_neg (fun hc => he (join_inj (fun u hu => (hi.trg.2 u hu).1) ht hc.symm)),
        List.takeWhile_cons_of_neg (by simpa using he), List.dropWhile_cons_of_neg (by simpa using he),
        ih i.2.trg _ (fun u hu => (hi.trg.2 u hu).1) hl, Sum.sumBy_nil, Rat.add_zero]
      rw [show runs (fun i : Item => i.2.trg) (i :: l) = (i.2.trg, i :: l.takeWhile fun b => decide (b.2.trg = i.2.trg)) ::
        runs (fun i : Item => i.2.trg) (l.dropWhile fun b => decide (b.2.trg = i.2.trg)) by rw [runs], List.map_cons, Sum.sumBy_cons]

theorem printCounts_runs (s : List Str) {g : List Item} (hne : g ≠ []) (hok : ∀ i ∈ g, ItemOk i) :
    printCounts fmt (gstate num s g) =
      (runs (fun i : Item => i.2.trg) g).map fun p => outLine fmt (joinWords s) (joinWords p.1) (cc num g).2 (sumBy (fun i => num i.2.cst) p.2) := by
  cases g with
  | nil => exact absurd rfl hne
  | cons i l =>
    have hi := hok i List.mem_cons_self
    show printLoop fmt (joinWords s) (cc num (i :: l)).2 (joinWords i.2.trg) (num i.2.cst) (l.map fun i => (joinWords i.2.trg, num i.2.cst)) = _
    rw [printLoop_runs fmt num _ _ l i.2.trg _ (fun u hu => (hi.trg.2 u hu).1) fun j hj => hok j (List.mem_cons_of_mem _ hj)]
    rw [show runs (fun i : Item => i.2.trg) (i :: l) = (i.2.trg, i :: l.takeWhile fun b => decide (b.2.trg = i.2.trg)) ::
        runs (fun i : Item => i.2.trg) (l.dropWhile fun b => decide (b.2.trg = i.2.trg)) by rw [runs], List.map_cons, Sum.sumBy_cons]

/-! ### The sums -/

theorem showNat_inj {a b : Nat} (h : showNat a = showNat b) : a = b := by
  have h1 := Vocab.atoiDigits_showNat a
  rw [h, Vocab.atoiDigits_showNat] at h1
  exact h1.symm

theorem cc_sum (val : Nat → Rat) (U : List Nat) (hU : U.Nodup) : ∀ (g : List Item), (∀ i ∈ g, i.1 ∈ U ∧ num i.2.cs = val i.1) →
    (∀ n, showNat n ∈ (cc num g).1 ↔ n ∈ g.map Prod.fst) ∧
    (cc num g).2 = sumBy (fun n => if n ∈ g.map Prod.fst then val n else 0) U := by
  intro g
  induction hn : g.length generalizing g with
  | zero =>
    intro _
    have : g = [] := List.length_eq_zero_iff.1 hn
    subst this
    refine ⟨fun n => by simp [cc], ?_⟩
    rw [Sum.sumBy_zero]
    · rfl
    · intro n _; simp
  | succ m ih =>
    intro h
    rcases List.eq_nil_or_concat g with rfl | ⟨g', i, rfl⟩
    · cases hn
    · rw [List.concat_eq_append] at hn h ⊢
      have hlen : g'.length = m := by simp at hn; exact hn
      obtain ⟨h1, h2⟩ := ih g' hlen fun j hj => h j (by simp [hj])
      obtain ⟨hi1, hi2⟩ := h i (by simp)
      have hcc : cc num (g' ++ [i]) = if showNat i.1 ∈ (cc num g').1 then cc num g' else (showNat i.1 :: (cc num g').1, (cc num g').2 + num i.2.cs) := by
        unfold cc; rw [List.foldl_append]; rfl
      rw [hcc]
      by_cases hm : showNat i.1 ∈ (cc num g').1
      · rw [if_pos hm]
        have hm' := (h1 i.1).1 hm
        have hiff : ∀ n, n ∈ (g' ++ [i]).map Prod.fst ↔ n ∈ g'.map Prod.fst := by
          intro n
          rw [List.map_append, List.mem_append, List.map_cons, List.map_nil, List.mem_singleton]
          constructor
          · rintro (h | rfl)
            · exact h
            · exact hm'
          · exact Or.inl
        refine ⟨fun n => (h1 n).trans (hiff n).symm, ?_⟩
        rw [h2]
        apply Sum.sumBy_congr
        intro n _
        simp only [hiff n]
      · rw [if_neg hm]
        have hm' : i.1 ∉ g'.map Prod.fst := fun hc => hm ((h1 i.1).2 hc)
        constructor
        · intro n
          rw [List.mem_cons, h1, List.map_append, List.mem_append, List.map_cons, List.map_nil, List.mem_singleton]
          constructor
          · rintro (h | h)
            · exact Or.inr (showNat_inj h)
            · exact Or.inl h
          · rintro (h | h)
            · exact Or.inr h
            · exact Or.inl (by rw [h])
        · have hs := Sum.sumBy_single i.1 (num i.2.cs) hU
          rw [if_pos hi1] at hs
          simp only
          rw [h2, ← hs, ← Sum.sumBy_add]
          apply Sum.sumBy_congr
          intro n _
          rw [List.map_append, List.map_cons, List.map_nil]
          by_cases hni : n = i.1
          · subst hni
            rw [if_neg hm', if_pos rfl, if_pos (List.mem_append_right _ List.mem_cons_self), hi2, Rat.zero_add]
          · rw [if_neg hni, Rat.add_zero]
            have hiff : (n ∈ g'.map Prod.fst ++ [i.1]) ↔ n ∈ g'.map Prod.fst := by
              rw [List.mem_append, List.mem_singleton]; exact ⟨fun h => h.resolve_right hni, Or.inl⟩
            simp only [hiff]

/-! ### The items of the tables -/

/-- The items of the file `counts`. -/
def itemsFrom : Nat → List (List Entry) → List Item
  | _, [] => []
  | c, tab :: tabs => (tab.map fun e => (c, e)) ++ itemsFrom (c + 1) tabs

theorem countsFile_items : ∀ (tabs : List (List Entry)) (c : Nat),
    countsFile c (tabs.map fun tab => tab.map entryLine) = (itemsFrom c tabs).map lineOf := by
  intro tabs
  induction tabs with
  | nil => intro c; rfl
  | cons tab tabs ih =>
    intro c
    show (tab.map entryLine).map (countLine c) ++ countsFile (c + 1) (tabs.map fun tab => tab.map entryLine) = ((tab.map fun e => (c, e)) ++ itemsFrom (c + 1) tabs).map lineOf
    rw [ih, List.map_append, List.map_map, List.map_map]
    rfl

theorem mem_items : ∀ (tabs : List (List Entry)) (c : Nat) (i : Item),
    i ∈ itemsFrom c tabs ↔ ∃ k tab, i.1 = c + k ∧ tabs[k]? = some tab ∧ i.2 ∈ tab := by
  intro tabs
  induction tabs with
  | nil =>
    intro c i
    constructor
    · intro h; cases h
    · rintro ⟨k, tab, _, h, _⟩; simp at h
  | cons tab tabs ih =>
    intro c i
    show i ∈ (tab.map fun e => (c, e)) ++ itemsFrom (c + 1) tabs ↔ _
    rw [List.mem_append, ih, List.mem_map]
    constructor
    · rintro (⟨e, he, rfl⟩ | ⟨k, tab', h1, h2, h3⟩)
      · exact ⟨0, tab, rfl, rfl, he⟩
      · exact ⟨k + 1, tab', by omega, by simpa using h2, h3⟩
    · rintro ⟨k, tab', h1, h2, h3⟩
      cases k with
      | zero =>
        left
        simp only [List.getElem?_cons_zero, Option.some.injEq] at h2
        subst h2
        exact ⟨i.2, h3, by rw [show c = i.1 from h1.symm]⟩
      | succ k => exact Or.inr ⟨k, tab', by omega, by simpa using h2, h3⟩

theorem items_sum (f : Entry → Rat) (P : Entry → Bool) : ∀ (tabs : List (List Entry)) (c : Nat),
    sumBy (fun i => f i.2) ((itemsFrom c tabs).filter fun i => P i.2) = sumBy (fun tab => sumBy f (tab.filter P)) tabs := by
  intro tabs
  induction tabs with
  | nil => intro c; rfl
  | cons tab tabs ih =>
    intro c
    show sumBy (fun i => f i.2) (((tab.map fun e => (c, e)) ++ itemsFrom (c + 1) tabs).filter fun i => P i.2) = _
    rw [List.filter_append, Sum.sumBy_append, ih, Sum.sumBy_cons]
    congr 1
    rw [List.filter_map, Sum.sumBy_map]
    rfl

theorem cst_once (s t : List Str) : ∀ {tab : List Entry}, (tab.Pairwise fun a b => ¬ (a.src = b.src ∧ a.trg = b.trg)) →
    sumBy (fun e => num e.cst) (tab.filter fun e => decide (e.src = s ∧ e.trg = t)) = cstIn num s t tab := by
  intro tab
  induction tab with
  | nil => intro _; rfl
  | cons e tab ih =>
    intro h
    obtain ⟨h1, h2⟩ := List.pairwise_cons.1 h
    unfold cstIn
    by_cases he : e.src = s ∧ e.trg = t
    · rw [List.filter_cons_of_pos (by simpa using he), List.find?_cons_of_pos (by simpa using he), Sum.sumBy_cons, List.filter_eq_nil_iff.2, Sum.sumBy_nil, Rat.add_zero]
      intro b hb hc
      exact h1 b hb ⟨he.1.trans (of_decide_eq_true hc).1.symm, he.2.trans (of_decide_eq_true hc).2.symm⟩
    · rw [List.filter_cons_of_neg (by simpa using he), List.find?_cons_of_neg (by simpa using he), ih h2]
      rfl

theorem cs_find {s : List Str} {tab : List Entry} (hs : ∀ a ∈ tab, ∀ b ∈ tab, a.src = b.src → num a.cs = num b.cs) {e : Entry} (he : e ∈ tab) (hes : e.src = s) :
    num e.cs = csIn num s tab := by
  unfold csIn
  cases hf : tab.find? fun e => decide (e.src = s) with
  | none =>
    have := List.find?_eq_none.1 hf e he
    simp [hes] at this
  | some e' =>
    have h1 := List.mem_of_find?_eq_some hf
    have h2 := List.find?_some hf
    exact hs e he e' h1 (hes.trans (of_decide_eq_true h2).symm)

theorem cs_none {s : List Str} {tab : List Entry} (h : ∀ e ∈ tab, e.src ≠ s) : csIn num s tab = 0 := by
  unfold csIn
  rw [List.find?_eq_none.2]
  intro e he
  simpa using h e he

theorem range_tabs (tabs : List (List Entry)) : (List.range' 1 tabs.length).map (fun j => tabs.getD (j - 1) []) = tabs := by
  apply List.ext_getElem
  · simp
  · intro k h1 h2
    simp [List.getD_eq_getElem?_getD, Nat.add_sub_cancel_left, List.getElem?_eq_getElem h2]

/-! ### The merged table -/

theorem outLine_fields {s t : List Str} (hs : Phrase s) (ht : Phrase t) (hf : ∀ x, Word (fmt x)) (a b : Rat) :
    fields ' ' (outLine fmt (joinWords s) (joinWords t) a b) = s ++ sep :: t ++ [sep, fmt a, fmt b] := by
  have : outLine fmt (joinWords s) (joinWords t) a b = joinWords (s ++ sep :: t ++ [sep, fmt a, fmt b]) := by
    rw [join_append (s ++ sep :: t) [sep, fmt a, fmt b] (by simp) (by simp), join_append s (sep :: t) hs.1 (by simp),
      show sep :: t = [sep] ++ t from rfl, join_append [sep] t (by simp) ht.1]
    unfold outLine
    simp [joinWords, sep]
  rw [this, fields_join]
  intro w hw
  rw [List.append_assoc, List.mem_append, List.cons_append, List.mem_cons, List.mem_append] at hw
  rcases hw with hw | rfl | hw | hw
  · exact (hs.2 w hw).1
  · exact word_sep
  · exact (ht.2 w hw).1
  · simp only [List.mem_cons, List.not_mem_nil, or_false] at hw
    rcases hw with rfl | rfl | rfl
    · exact word_sep
    · exact hf a
    · exact hf b

theorem fromEnd_two (l : List Str) (a b c : Str) : fromEnd (l ++ [a, b, c]) 1 = b := by
  unfold fromEnd
  simp only [List.length_append, List.length_cons, List.length_nil]
  rw [show l.length + (0 + 1 + 1 + 1) - 1 - 1 = l.length + 1 by omega]
  simp [List.getD_eq_getElem?_getD]

/-- Merging the tables of the chunks: whatever order `sort` gives to equal lines, the table written has exactly one entry for each pair of
phrases of the tables of the chunks whose source phrase has a total count above the cutoff; the counts are the sums over the chunks of the
count of the source phrase and of the count of the pair. -/
theorem C238_merge (hfmt : ∀ x, Word (fmt x)) (cutoff : Rat) (tabs : List (List Entry)) (htab : ∀ tab ∈ tabs, ChunkTable num tab)
    (hne : (∃ tab ∈ tabs, tab ≠ []) ∨ num (fmt 0) ≤ cutoff)
    (sorted : List Str) (hsort : IsSort sorted (countsFile 1 (tabs.map fun tab => tab.map entryLine))) :
    ∃ pairs : List (List Str × List Str), pairs.Nodup ∧
      (∀ s t, (s, t) ∈ pairs ↔ (∃ tab ∈ tabs, ∃ e ∈ tab, e.src = s ∧ e.trg = t) ∧ cutoff < num (fmt (sumBy (csIn num s) tabs))) ∧
      mergeTables fmt num cutoff sorted =
        pairs.map fun p => tableLine p.1 p.2 (fmt (sumBy (csIn num p.1) tabs)) (fmt (sumBy (cstIn num p.1 p.2) tabs)) := by
  obtain ⟨hperm, hord⟩ := hsort
  rw [countsFile_items] at hperm
  obtain ⟨E, hE, rfl⟩ := perm_map_lift lineOf hperm
  have hmem : ∀ i, i ∈ E ↔ ∃ (k : Nat) (tab : List Entry), i.1 = 1 + k ∧ tabs[k]? = some tab ∧ i.2 ∈ tab := fun i => hE.mem_iff.trans (mem_items tabs 1 i)
  have hok : ∀ i ∈ E, ItemOk i := by
    intro i hi
    obtain ⟨k, tab, _, h2, h3⟩ := (hmem i).1 hi
    have ht := htab tab (List.mem_of_getElem? h2)
    exact ⟨ht.src _ h3, ht.trg _ h3, ht.cs _ h3, ht.cst _ h3⟩
  have hmem' : ∀ s t, (∃ i ∈ E, i.2.src = s ∧ i.2.trg = t) ↔ ∃ tab ∈ tabs, ∃ e ∈ tab, e.src = s ∧ e.trg = t := by
    intro s t
    constructor
    · rintro ⟨i, hi, h⟩
      obtain ⟨k, tab, _, h2, h3⟩ := (hmem i).1 hi
      exact ⟨tab, List.mem_of_getElem? h2, i.2, h3, h⟩
    · rintro ⟨tab, ht, e, he, h⟩
      obtain ⟨k, hk⟩ := List.getElem?_of_mem ht
      exact ⟨(1 + k, e), (hmem _).2 ⟨k, tab, rfl, hk, he⟩, h⟩
  by_cases hE0 : E = []
  · -- no entries
    subst hE0
    have hno : ∀ tab ∈ tabs, tab = [] := by
      intro tab ht
      cases tab with
      | nil => rfl
      | cons e tab =>
        obtain ⟨i, hi, _⟩ := (hmem' e.src e.trg).2 ⟨e :: tab, ht, e, List.mem_cons_self, rfl, rfl⟩
        cases hi
    have hcut : num (fmt 0) ≤ cutoff := by
      rcases hne with ⟨tab, ht, hn⟩ | h
      · exact absurd (hno tab ht) hn
      · exact h
    refine ⟨[], List.nodup_nil, ?_, ?_⟩
    · intro s t
      constructor
      · intro h; cases h
      · rintro ⟨⟨tab, ht, e, he, _⟩, _⟩
        rw [hno tab ht] at he; cases he
    · show cutTtable num cutoff [outLine fmt [] [] 0 0] = []
      unfold cutTtable
      rw [List.filter_eq_nil_iff]
      intro ln hln
      rw [List.mem_singleton] at hln
      subst hln
      have hf : fields ' ' (outLine fmt [] [] 0 0) = [sep, sep, fmt 0, fmt 0] := by
        show fields ' ' (' ' :: ([sep].head (by simp) ++ ' ' :: ' ' :: (sep ++ ' ' :: (fmt 0 ++ ' ' :: fmt 0)))) = _
        have e1 := fields_prefix [sep] (by intro u hu; rw [List.mem_singleton] at hu; rw [hu]; exact word_sep) (by simp) (' ' :: (sep ++ ' ' :: (fmt 0 ++ ' ' :: fmt 0)))
        have e2 := fields_join (ws := [sep, fmt 0, fmt 0]) (by
          intro w hw
          simp only [List.mem_cons, List.not_mem_nil, or_false] at hw
          rcases hw with rfl | rfl | rfl
          · exact word_sep
          · exact hfmt 0
          · exact hfmt 0)
        rw [Awk.fields_sep]
        rw [Awk.fields_sep] at e1
        exact e1.trans (congrArg _ e2)
      rw [hf]
      have : fromEnd [sep, sep, fmt 0, fmt 0] 1 = fmt 0 := rfl
      rw [this]
      simp only [decide_eq_true_eq]
      exact fun hc => absurd hc (Rat.not_lt.2 hcut)
  · -- the groups
    obtain ⟨ks, hksN, hksM, hks⟩ := runs_contig (fun i : Item => i.2.src) E (contig_src hok hord)
    let g : List Str → List Item := fun s => E.filter fun i => decide (i.2.src = s)
    have hgok : ∀ s, ∀ i ∈ g s, ItemOk i := fun s i hi => hok i (List.mem_filter.1 hi).1
    have hgc : ∀ s, Contig (fun i : Item => i.2.trg) (g s) := by
      intro s a b c hsub hk
      have h1 : ∀ x ∈ [a, b, c], x.2.src = s := fun x hx => of_decide_eq_true (List.mem_filter.1 (hsub.subset hx)).2
      have h2 := contig_pair hok hord a b c (hsub.trans List.filter_sublist) (by
        simp only [h1 a (by simp), h1 c (by simp)]; rw [show a.2.trg = c.2.trg from hk])
      exact (Prod.mk.inj h2).2
    obtain ⟨ts, hts⟩ : ∃ ts : List Str → List (List Str), ∀ s, (ts s).Nodup ∧ (∀ t, t ∈ ts s ↔ ∃ i ∈ g s, i.2.trg = t) ∧
        runs (fun i : Item => i.2.trg) (g s) = (ts s).map fun t => (t, (g s).filter fun i => decide (i.2.trg = t)) := by
      refine ⟨fun s => (runs (fun i : Item => i.2.trg) (g s)).map Prod.fst, fun s => ?_⟩
      obtain ⟨l, h1, h2, h3⟩ := runs_contig (fun i : Item => i.2.trg) (g s) (hgc s)
      have : (runs (fun i : Item => i.2.trg) (g s)).map Prod.fst = l := by
        rw [h3, List.map_map]
        exact List.map_id l
      simp only [this]
      exact ⟨h1, h2, h3⟩
    -- the counts
    have hcs : ∀ s, (cc num (g s)).2 = sumBy (csIn num s) tabs := by
      intro s
      have hU : (List.range' 1 tabs.length).Nodup := List.nodup_range'
      have hg : ∀ i ∈ g s, i.1 ∈ List.range' 1 tabs.length ∧ num i.2.cs = csIn num s (tabs.getD (i.1 - 1) []) := by
        intro i hi
        obtain ⟨hi1, hi2⟩ := List.mem_filter.1 hi
        obtain ⟨k, tab, h1, h2, h3⟩ := (hmem i).1 hi1
        have hlt : k < tabs.length := by
          obtain ⟨h, _⟩ := List.getElem?_eq_some_iff.1 h2
          exact h
        refine ⟨by rw [List.mem_range'_1]; omega, ?_⟩
        have : tabs.getD (i.1 - 1) [] = tab := by
          rw [h1, Nat.add_sub_cancel_left, List.getD_eq_getElem?_getD, h2]; rfl
        rw [this]
        exact cs_find num (htab tab (List.mem_of_getElem? h2)).same h3 (of_decide_eq_true hi2)
      rw [(cc_sum num (fun j => csIn num s (tabs.getD (j - 1) [])) _ hU (g s) hg).2]
      conv => rhs; rw [← range_tabs tabs]
      rw [Sum.sumBy_map]
      apply Sum.sumBy_congr
      intro j hj
      by_cases hjm : j ∈ (g s).map Prod.fst
      · rw [if_pos hjm]
      · rw [if_neg hjm]
        symm
        apply cs_none
        intro e he hes
        apply hjm
        rw [List.mem_range'_1] at hj
        have hjl : j - 1 < tabs.length := by omega
        rw [List.getD_eq_getElem?_getD, List.getElem?_eq_getElem hjl] at he
        refine List.mem_map.2 ⟨(j, e), List.mem_filter.2 ⟨(hmem _).2 ⟨j - 1, tabs[j - 1], by simp only; omega, List.getElem?_eq_getElem hjl, he⟩, ?_⟩, rfl⟩
        simpa using hes
    have hcst : ∀ s t, sumBy (fun i : Item => num i.2.cst) ((g s).filter fun i => decide (i.2.trg = t)) = sumBy (cstIn num s t) tabs := by
      intro s t
      have e1 : (g s).filter (fun i => decide (i.2.trg = t)) = E.filter fun i => decide (i.2.src = s ∧ i.2.trg = t) := by
        show (E.filter _).filter _ = _
        rw [List.filter_filter]
        apply List.filter_congr
        intro i _
        by_cases h1 : i.2.src = s <;> by_cases h2 : i.2.trg = t <;> simp [h1, h2]
      rw [e1, Sum.sumBy_perm _ (hE.filter _), items_sum (fun e => num e.cst) (fun e => decide (e.src = s ∧ e.trg = t)) tabs 1]
      apply Sum.sumBy_congr
      intro tab ht
      exact cst_once num s t (htab tab ht).once
    -- the lines
    have hmerge : mergeCounts fmt num (E.map lineOf) = (ks.flatMap fun s => (ts s).map fun t => (s, t)).map fun p =>
        outLine fmt (joinWords p.1) (joinWords p.2) (sumBy (csIn num p.1) tabs) (sumBy (cstIn num p.1 p.2) tabs) := by
      rw [mergeCounts_runs fmt num hE0 hok, hks, List.flatMap_map, List.map_flatMap]
      rw [List.flatMap_def, List.flatMap_def]
      congr 1
      apply List.map_congr_left
      intro s hs
      obtain ⟨i, hi, his⟩ := (hksM s).1 hs
      have hgs : g s ≠ [] := List.ne_nil_of_mem (List.mem_filter.2 ⟨hi, by simpa using his⟩)
      show printCounts fmt (gstate num s (g s)) = _
      rw [printCounts_runs fmt num s hgs (hgok s), (hts s).2.2, List.map_map, List.map_map]
      apply List.map_congr_left
      intro t _
      show outLine fmt (joinWords s) (joinWords t) (cc num (g s)).2 (sumBy (fun i : Item => num i.2.cst) ((g s).filter fun i => decide (i.2.trg = t))) = _
      rw [hcs, hcst]
      rfl
    have hphr : ∀ s t, (∃ i ∈ E, i.2.src = s ∧ i.2.trg = t) → Phrase s ∧ Phrase t := by
      rintro s t ⟨i, hi, rfl, rfl⟩
      exact ⟨(hok i hi).src, (hok i hi).trg⟩
    have hall : ∀ s t, (s, t) ∈ (ks.flatMap fun s => (ts s).map fun t => (s, t)) ↔ ∃ i ∈ E, i.2.src = s ∧ i.2.trg = t := by
      intro s t
      rw [List.mem_flatMap]
      constructor
      · rintro ⟨s', hs', h⟩
        obtain ⟨t', ht', he⟩ := List.mem_map.1 h
        injection he with e1 e2
        subst e1; subst e2
        obtain ⟨i, hi, hit⟩ := ((hts s').2.1 t').1 ht'
        exact ⟨i, (List.mem_filter.1 hi).1, of_decide_eq_true (List.mem_filter.1 hi).2, hit⟩
      · rintro ⟨i, hi, h1, h2⟩
        refine ⟨s, (hksM s).2 ⟨i, hi, h1⟩, List.mem_map.2 ⟨t, ((hts s).2.1 t).2 ⟨i, List.mem_filter.2 ⟨hi, by simpa using h1⟩, h2⟩, rfl⟩⟩
    have hnodup : (ks.flatMap fun s => (ts s).map fun t => (s, t)).Nodup := by
      rw [List.nodup_iff_pairwise_ne, List.pairwise_flatMap]
      constructor
      · intro s _
        rw [List.pairwise_map]
        exact (List.nodup_iff_pairwise_ne.1 (hts s).1).imp fun h e => h (Prod.mk.inj e).2
      · refine (List.nodup_iff_pairwise_ne.1 hksN).imp ?_
        rintro a b hab x hx y hy rfl
        obtain ⟨_, _, e1⟩ := List.mem_map.1 hx
        obtain ⟨_, _, e2⟩ := List.mem_map.1 hy
        exact hab ((Prod.mk.inj (e1.trans e2.symm)).1)
    refine ⟨(ks.flatMap fun s => (ts s).map fun t => (s, t)).filter fun p => decide (cutoff < num (fmt (sumBy (csIn num p.1) tabs))), hnodup.filter _, ?_, ?_⟩
    · intro s t
      rw [List.mem_filter, hall, hmem']
      simp
    · show cutTtable num cutoff (mergeCounts fmt num (E.map lineOf)) = _
      rw [hmerge]
      unfold cutTtable
      rw [List.filter_map]
      have hline : ∀ p : List Str × List Str, outLine fmt (joinWords p.1) (joinWords p.2) (sumBy (csIn num p.1) tabs) (sumBy (cstIn num p.1 p.2) tabs) =
          tableLine p.1 p.2 (fmt (sumBy (csIn num p.1) tabs)) (fmt (sumBy (cstIn num p.1 p.2) tabs)) := by
        intro p; unfold outLine tableLine; simp
      simp only [hline]
      congr 1
      apply List.filter_congr
      rintro ⟨s, t⟩ hp
      obtain ⟨hs, ht⟩ := hphr s t ((hall s t).1 hp)
      apply decide_eq_decide.2
      show num (fromEnd (fields ' ' (tableLine s t (fmt (sumBy (csIn num s) tabs)) (fmt (sumBy (cstIn num s t) tabs)))) 1) > cutoff ↔ _
      have hl := hline (s, t)
      simp only at hl
      rw [← hl, outLine_fields fmt hs ht hfmt, fromEnd_two]

end

/-! ### Non-vacuity -/

def exNum (w : Str) : Rat := (w.length : Rat)
def exTab1 : List Entry := [⟨[['a']], [['x']], ['i', 'i'], ['i']⟩, ⟨[['a']], [['y']], ['i', 'i'], ['i']⟩]
def exTab2 : List Entry := [⟨[['a']], [['x']], ['i', 'i', 'i'], ['i', 'i', 'i']⟩]

theorem exPhrase (c : Char) (h : c ≠ ' ' ∧ c ≠ '\n' ∧ c ≠ '\x00') : Phrase [[c]] := by
  refine ⟨by simp, ?_⟩
  intro w hw
  rw [List.mem_singleton] at hw
  subst hw
  refine ⟨⟨by simp, ?_⟩, ?_⟩
  · intro d hd
    rw [List.mem_singleton] at hd
    subst hd; exact h
  · intro he
    have := congrArg List.length he
    simp at this

/-- Two chunks with a common pair: the counts of the source phrase are 2 and 3, those of the pair 1 and 3. -/
example : ChunkTable exNum exTab1 ∧ ChunkTable exNum exTab2 ∧ sumBy (csIn exNum [['a']]) [exTab1, exTab2] = 5 ∧
    sumBy (cstIn exNum [['a']] [['x']]) [exTab1, exTab2] = 4 ∧ sumBy (cstIn exNum [['a']] [['y']]) [exTab1, exTab2] = 1 := by
  have hw : ∀ n, n ≠ 0 → Word (List.replicate n 'i') := by
    intro n hn
    refine ⟨by simpa using hn, ?_⟩
    intro c hc
    rw [(List.mem_replicate.1 hc).2]; decide
  refine ⟨⟨?_, ?_, ?_, ?_, ?_, ?_⟩, ⟨?_, ?_, ?_, ?_, ?_, ?_⟩, ?_, ?_, ?_⟩
  · intro e he; simp only [exTab1, List.mem_cons, List.not_mem_nil, or_false] at he
    rcases he with rfl | rfl <;> exact exPhrase _ (by decide)
  · intro e he; simp only [exTab1, List.mem_cons, List.not_mem_nil, or_false] at he
    rcases he with rfl | rfl <;> exact exPhrase _ (by decide)
  · intro e he; simp only [exTab1, List.mem_cons, List.not_mem_nil, or_false] at he
    rcases he with rfl | rfl <;> exact hw 2 (by decide)
  · intro e he; simp only [exTab1, List.mem_cons, List.not_mem_nil, or_false] at he
    rcases he with rfl | rfl <;> exact hw 1 (by decide)
  · simp [exTab1]
  · intro a ha b hb _; simp only [exTab1, List.mem_cons, List.not_mem_nil, or_false] at ha hb
    rcases ha with rfl | rfl <;> rcases hb with rfl | rfl <;> rfl
  · intro e he; simp only [exTab2, List.mem_cons, List.not_mem_nil, or_false] at he
    subst he; exact exPhrase _ (by decide)
  · intro e he; simp only [exTab2, List.mem_cons, List.not_mem_nil, or_false] at he
    subst he; exact exPhrase _ (by decide)
  · intro e he; simp only [exTab2, List.mem_cons, List.not_mem_nil, or_false] at he
    subst he; exact hw 3 (by decide)
  · intro e he; simp only [exTab2, List.mem_cons, List.not_mem_nil, or_false] at he
    subst he; exact hw 3 (by decide)
  · simp [exTab2]
  · intro a ha b hb _; simp only [exTab2, List.mem_cons, List.not_mem_nil, or_false] at ha hb
    subst ha; subst hb; rfl
  · decide +kernel
  · decide +kernel
  · decide +kernel

end Thot.PhrTools
