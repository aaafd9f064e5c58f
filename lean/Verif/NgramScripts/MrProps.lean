import Verif.NgramScripts.CountProps
/-!
C249: counting a corpus divided in fragments.
-/
namespace Thot.NgramScripts

open Thot
open Thot.SentHandler (joinWords Word fields_join)
open Thot.Awk (fields)
open Thot.Vocab (showNat)
open Thot.PhrTools (join_append join_inj leText IsSort prefix_between fields_prefix Contig runs runs_contig perm_map_lift showNat_inj)

/-! ### Lines -/

/-- A line of the file `counts`: the number of the fragment and the n-gram. -/
abbrev Item := Nat × List Str

section
variable (fr : Nat → List (List Str))

def iwords (i : Item) : List Str := i.2 ++ [showNat (total i.2.dropLast (fr i.1)), showNat (total i.2 (fr i.1)), showNat i.1]

def lineOf (i : Item) : Str := joinWords (iwords fr i)

structure ItemOk (i : Item) : Prop where
  ne : i.2 ≠ []
  word : ∀ w ∈ i.2, Word w
  pos : 0 < total i.2.dropLast (fr i.1)

theorem iwords_ok {i : Item} (h : ItemOk fr i) : ∀ w ∈ iwords fr i, Word w := by
  intro w hw
  unfold iwords at hw
  rw [List.mem_append] at hw
  rcases hw with hw | hw
  · exact h.word w hw
  · simp only [List.mem_cons, List.not_mem_nil, or_false] at hw
    rcases hw with rfl | rfl | rfl <;> exact AligFile.word_showNat _

theorem fields_line {i : Item} (h : ItemOk fr i) : fields ' ' (lineOf fr i) = iwords fr i := fields_join (iwords_ok fr h)

theorem iwords_length (i : Item) : (iwords fr i).length = i.2.length + 3 := by unfold iwords; simp

theorem num_showNat (n : Nat) : num (showNat n) = n := Vocab.atoiDigits_showNat n

theorem getLastD_snoc (g : List Str) (w d : Str) : (g ++ [w]).getLastD d = w := by
  rw [List.getLastD_eq_getLast?, List.getLast?_concat]; rfl

theorem list_last {g : List Str} (h : g ≠ []) : ∃ s w, g = s ++ [w] := ⟨g.dropLast, g.getLast h, (List.dropLast_concat_getLast h).symm⟩

theorem src_words {i : Item} (h : ItemOk fr i) : srcOf (iwords fr i) = joinWords i.2.dropLast := by
  obtain ⟨s, w, hs⟩ := list_last h.ne
  unfold srcOf
  rw [iwords_length]
  unfold iwords
  rw [hs, List.dropLast_concat]
  cases s with
  | nil => rfl
  | cons a s =>
    rw [if_neg (by simp)]
    simp only [List.cons_append, List.headD_cons, List.tail_cons, List.length_cons, List.length_append, List.length_nil]
    rw [show s.length + (0 + 1) + 1 + 3 - 5 = s.length by omega, List.append_assoc, List.take_left]

theorem trg_words {i : Item} (h : ItemOk fr i) : trgOf (iwords fr i) = i.2.getLastD [] := by
  obtain ⟨s, w, hs⟩ := list_last h.ne
  unfold trgOf
  rw [iwords_length]
  unfold iwords
  rw [hs]
  cases s with
  | nil => rfl
  | cons a s =>
    rw [if_neg (by simp)]
    simp only [List.cons_append, List.length_cons, List.length_append, List.length_nil]
    rw [show max 2 (s.length + (0 + 1) + 1 + 3 - 3) - 1 = s.length + 1 by omega, List.append_assoc, List.getD_cons_succ, ← List.cons_append, getLastD_snoc]
    simp [List.getD_eq_getElem?_getD]

theorem end_words (i : Item) : fromEnd (iwords fr i) 0 = showNat i.1 ∧ fromEnd (iwords fr i) 1 = showNat (total i.2 (fr i.1)) ∧
    fromEnd (iwords fr i) 2 = showNat (total i.2.dropLast (fr i.1)) := by
  have : ∀ (l : List Str) (b c d : Str), fromEnd (l ++ [b, c, d]) 0 = d ∧ fromEnd (l ++ [b, c, d]) 1 = c ∧ fromEnd (l ++ [b, c, d]) 2 = b := by
    intro l b c d
    unfold fromEnd
    simp only [List.length_append, List.length_cons, List.length_nil]
    refine ⟨?_, ?_, ?_⟩
    · rw [show l.length + (0 + 1 + 1 + 1) - 1 - 0 = l.length + 2 by omega]; simp [List.getD_eq_getElem?_getD]
    · rw [show l.length + (0 + 1 + 1 + 1) - 1 - 1 = l.length + 1 by omega]; simp [List.getD_eq_getElem?_getD]
    · rw [show l.length + (0 + 1 + 1 + 1) - 1 - 2 = l.length by omega]; simp [List.getD_eq_getElem?_getD]
  exact this _ _ _ _

/-! ### The length put before the lines -/

def swords (i : Item) : List Str := showNat (i.2.length + 3) :: iwords fr i

theorem swords_ok {i : Item} (h : ItemOk fr i) : ∀ w ∈ swords fr i, Word w := by
  intro w hw
  unfold swords at hw
  rcases List.mem_cons.1 hw with rfl | hw
  · exact AligFile.word_showNat _
  · exact iwords_ok fr h w hw

theorem addLen_line {i : Item} (h : ItemOk fr i) : addLen (lineOf fr i) = joinWords (swords fr i) := by
  unfold addLen
  rw [fields_line fr h, iwords_length]
  unfold lineOf swords iwords
  cases i.2 <;> rfl

theorem flat_join1 (g : List Str) (a : Str) : ((g.map fun w => w ++ [' ']).flatten ++ a) = joinWords (g ++ [a]) := by
  induction g with
  | nil => rfl
  | cons w g ih =>
    have : joinWords (w :: (g ++ [a])) = w ++ ' ' :: joinWords (g ++ [a]) := by
      cases g <;> rfl
    rw [List.cons_append, this, ← ih, List.map_cons, List.flatten_cons]
    simp

theorem dropLen_line {i : Item} (h : ItemOk fr i) : dropLen (addLen (lineOf fr i)) = lineOf fr i := by
  rw [addLen_line fr h]
  unfold dropLen
  rw [fields_join (swords_ok fr h)]
  unfold swords
  rw [List.tail_cons, flat_join1]
  unfold lineOf iwords
  have e1 : i.2 ++ [showNat (total i.2.dropLast (fr i.1)), showNat (total i.2 (fr i.1)), showNat i.1] =
      (i.2 ++ [showNat (total i.2.dropLast (fr i.1)), showNat (total i.2 (fr i.1))]) ++ [showNat i.1] := by simp
  rw [e1, List.dropLast_concat]
  congr 2
  have : (showNat (i.2.length + 3) :: ((i.2 ++ [showNat (total i.2.dropLast (fr i.1)), showNat (total i.2 (fr i.1))]) ++ [showNat i.1])).getLastD [] = showNat i.1 := by
    rw [← List.cons_append, getLastD_snoc]
  rw [this, num_showNat]

/-! ### The order -/

theorem prefix_words {us : List Str} {i : Item} (hi : ItemOk fr i) (hu : ∀ u ∈ us, Word u) (hne : us ≠ [])
    (h : (joinWords us ++ [' ']) <+: addLen (lineOf fr i)) : ∃ r, swords fr i = us ++ r := by
  rw [addLen_line fr hi] at h
  obtain ⟨r, hr⟩ := h
  have := fields_join (swords_ok fr hi)
  rw [← hr, List.append_assoc] at this
  have h2 := fields_prefix us hu hne r
  rw [show (joinWords us ++ ([' '] ++ r)) = joinWords us ++ ' ' :: r from rfl, h2] at this
  exact ⟨_, this.symm⟩

theorem line_prefix {i : Item} (hi : ItemOk fr i) {p r : List Str} (hp : i.2 = p ++ r) :
    (joinWords (showNat (i.2.length + 3) :: p) ++ [' ']) <+: addLen (lineOf fr i) := by
  rw [addLen_line fr hi]
  refine ⟨joinWords (r ++ [showNat (total i.2.dropLast (fr i.1)), showNat (total i.2 (fr i.1)), showNat i.1]), ?_⟩
  have : swords fr i = (showNat (i.2.length + 3) :: p) ++ (r ++ [showNat (total i.2.dropLast (fr i.1)), showNat (total i.2 (fr i.1)), showNat i.1]) := by
    unfold swords iwords
    conv => lhs; rw [hp]
    rw [hp]; simp
  rw [this, join_append (showNat (i.2.length + 3) :: p) (r ++ [showNat (total i.2.dropLast (fr i.1)), showNat (total i.2 (fr i.1)), showNat i.1])
    (by simp) (by simp), List.append_assoc]
  rfl

/-- The lines with the same first words, among those of the same length, are consecutive. -/
theorem contig_prefix {E : List Item} (hok : ∀ i ∈ E, ItemOk fr i) (hs : (E.map fun i => addLen (lineOf fr i)).Pairwise fun x y => leText x y = true)
    {a b c : Item} (hsub : [a, b, c].Sublist E) {p ra rc : List Str} (hpa : a.2 = p ++ ra) (hpc : c.2 = p ++ rc) (hlen : a.2.length = c.2.length) :
    b.2.length = a.2.length ∧ ∃ r, b.2 ++ [showNat (total b.2.dropLast (fr b.1)), showNat (total b.2 (fr b.1)), showNat b.1] = p ++ r := by
  have hp := (List.pairwise_map.1 hs).sublist hsub
  have hab : leText (addLen (lineOf fr a)) (addLen (lineOf fr b)) = true := (List.pairwise_cons.1 hp).1 b (by simp)
  have hbc : leText (addLen (lineOf fr b)) (addLen (lineOf fr c)) = true := (List.pairwise_cons.1 (List.pairwise_cons.1 hp).2).1 c (by simp)
  have ha := hok a (hsub.subset (by simp))
  have hb := hok b (hsub.subset (by simp))
  have hc := hok c (hsub.subset (by simp))
  have h1 := line_prefix fr ha hpa
  have h2 := line_prefix fr hc hpc
  rw [← hlen] at h2
  obtain ⟨r, hr⟩ := prefix_words fr hb (by
    intro u hu
    rcases List.mem_cons.1 hu with rfl | hu
    · exact AligFile.word_showNat _
    · exact ha.word u (by rw [hpa]; exact List.mem_append_left _ hu)) (by simp) (prefix_between h1 h2 hab hbc)
  unfold swords iwords at hr
  rw [List.cons_append] at hr
  injection hr with e1 e2
  exact ⟨by have := showNat_inj e1; omega, r, e2⟩

theorem contig_hist {E : List Item} (hok : ∀ i ∈ E, ItemOk fr i) (hs : (E.map fun i => addLen (lineOf fr i)).Pairwise fun x y => leText x y = true) :
    Contig (fun i : Item => i.2.dropLast) E := by
  intro a b c hsub hk
  have ha := hok a (hsub.subset (by simp))
  have hc := hok c (hsub.subset (by simp))
  simp only at hk ⊢
  have ea := (List.dropLast_concat_getLast ha.ne).symm
  have ec := (List.dropLast_concat_getLast hc.ne).symm
  rw [← hk] at ec
  have hlen : a.2.length = c.2.length := by rw [ea, ec]; simp
  obtain ⟨h1, r, h2⟩ := contig_prefix fr hok hs hsub ea ec hlen
  have h3 := congrArg (List.take (a.2.length - 1)) h2
  rw [List.take_append_of_le_length (by omega), List.dropLast_eq_take, List.dropLast_eq_take] at *
  rw [List.take_append_of_le_length (by simp), List.take_take, Nat.min_self] at h3
  rw [h1, h3]

theorem contig_ngram {E : List Item} (hok : ∀ i ∈ E, ItemOk fr i) (hs : (E.map fun i => addLen (lineOf fr i)).Pairwise fun x y => leText x y = true) :
    Contig (fun i : Item => i.2) E := by
  intro a b c hsub hk
  simp only at hk ⊢
  obtain ⟨h1, r, h2⟩ := contig_prefix fr hok hs hsub (p := a.2) (ra := []) (rc := []) (by simp) (by simp [hk]) (by rw [hk])
  have h3 := congrArg (List.take a.2.length) h2
  rw [List.take_left, List.take_append_of_le_length (by omega), ← h1, List.take_length] at h3
  exact h3

/-! ### The loops -/

/-- The chunks seen and the sum of the counts of the history. -/
def cc (g : List Item) : List Str × Nat :=
  g.foldl (fun st i => if showNat i.1 ∈ st.1 then st else (showNat i.1 :: st.1, st.2 + total i.2.dropLast (fr i.1))) ([], 0)

/-- The state after the entries of a group. -/
def gstate (s : List Str) (g : List Item) : MSt :=
  { first := joinWords s, grp := g.map fun i => (i.2.getLastD [], total i.2 (fr i.1)), chunks := (cc fr g).1, cnt := (cc fr g).2 }

theorem cc_snoc (g : List Item) (i : Item) : cc fr (g ++ [i]) =
    if showNat i.1 ∈ (cc fr g).1 then cc fr g else (showNat i.1 :: (cc fr g).1, (cc fr g).2 + total i.2.dropLast (fr i.1)) := by
  unfold cc; rw [List.foldl_append]; rfl

theorem gstate_add (s : List Str) (g : List Item) {i : Item} (hi : ItemOk fr i) :
    addChunk (iwords fr i) { gstate fr s g with grp := (gstate fr s g).grp ++ [(trgOf (iwords fr i), num (fromEnd (iwords fr i) 1))] } = gstate fr s (g ++ [i]) := by
  obtain ⟨e0, e1, e2⟩ := end_words fr i
  unfold addChunk
  rw [trg_words fr hi, e0, e1, e2, num_showNat, num_showNat]
  unfold gstate
  rw [cc_snoc]
  simp only [List.map_append, List.map_cons, List.map_nil]
  split <;> rfl

theorem gstate_new {i : Item} (hi : ItemOk fr i) :
    addChunk (iwords fr i) { first := srcOf (iwords fr i), grp := [(trgOf (iwords fr i), num (fromEnd (iwords fr i) 1))], chunks := [], cnt := 0 } =
      gstate fr i.2.dropLast [i] := by
  have := gstate_add fr i.2.dropLast [] hi
  rw [List.nil_append] at this
  rw [← this, src_words fr hi]
  rfl

theorem cc_pos : ∀ (g : List Item), g ≠ [] → (∀ i ∈ g, ItemOk fr i) → (cc fr g).2 ≠ 0 := by
  intro g
  induction hn : g.length generalizing g with
  | zero => intro h; exact absurd (List.length_eq_zero_iff.1 hn) h
  | succ m ih =>
    intro hne hok
    rcases List.eq_nil_or_concat g with rfl | ⟨g', i, rfl⟩
    · exact absurd rfl hne
    · rw [List.concat_eq_append] at hn hok ⊢
      have hi := (hok i (by simp)).pos
      rw [cc_snoc]
      by_cases hm : showNat i.1 ∈ (cc fr g').1
      · rw [if_pos hm]
        apply ih g' (by simp at hn; exact hn)
        · rintro rfl; simp [cc] at hm
        · exact fun j hj => hok j (by simp [hj])
      · rw [if_neg hm]; simp only; omega

theorem runs_cons {K : Type} [DecidableEq K] (k : Item → K) (i : Item) (l : List Item) :
    runs k (i :: l) = (k i, i :: l.takeWhile fun b => decide (k b = k i)) :: runs k (l.dropWhile fun b => decide (k b = k i)) := by rw [runs]

theorem mergeLoop_runs : ∀ (l : List Item) (s : List Str) (g : List Item), g ≠ [] → (∀ i ∈ g, ItemOk fr i) → (∀ w ∈ s, Word w) → (∀ i ∈ l, ItemOk fr i) →
    mergeLoop (gstate fr s g) (l.map (lineOf fr)) =
      printCounts (gstate fr s (g ++ l.takeWhile fun i => decide (i.2.dropLast = s))) ++
      (runs (fun i : Item => i.2.dropLast) (l.dropWhile fun i => decide (i.2.dropLast = s))).flatMap fun p => printCounts (gstate fr p.1 p.2) := by
  intro l
  induction l with
  | nil =>
    intro s g _ _ _ _
    simp [mergeLoop, runs]
  | cons i l ih =>
    intro s g hg hgok hs hok
    have hi := hok i List.mem_cons_self
    have hl := fun j hj => hok j (List.mem_cons_of_mem i hj)
    have hwi : ∀ w ∈ i.2.dropLast, Word w := fun w hw => hi.word w (List.dropLast_subset _ hw)
    rw [List.map_cons, mergeLoop, if_neg (show ¬ (gstate fr s g).cnt = 0 from cc_pos fr g hg hgok), fields_line fr hi, gstate_add fr s g hi, gstate_new fr hi, src_words fr hi]
    by_cases he : i.2.dropLast = s
    · rw [if_neg (show ¬ (gstate fr s g).first ≠ joinWords i.2.dropLast from fun hc => hc (by rw [he]; rfl)),
        List.takeWhile_cons_of_pos (by simpa using he), List.dropWhile_cons_of_pos (by simpa using he), ih s _ (by simp) (by
          intro j hj; rw [List.mem_append, List.mem_singleton] at hj
          rcases hj with hj | rfl
          · exact hgok j hj
          · exact hi) hs hl]
      simp
    · rw [if_pos (show (gstate fr s g).first ≠ joinWords i.2.dropLast from fun hc => he (join_inj hwi hs hc.symm)),
        List.takeWhile_cons_of_neg (by simpa using he), List.dropWhile_cons_of_neg (by simpa using he),
        ih i.2.dropLast [i] (by simp) (by intro j hj; rw [List.mem_singleton] at hj; rw [hj]; exact hi) hwi hl]
      rw [runs_cons, List.flatMap_cons]
      simp

theorem mergeCounts_runs {E : List Item} (hne : E ≠ []) (hok : ∀ i ∈ E, ItemOk fr i) :
    mergeCounts (E.map (lineOf fr)) = (runs (fun i : Item => i.2.dropLast) E).flatMap fun p => printCounts (gstate fr p.1 p.2) := by
  cases E with
  | nil => exact absurd rfl hne
  | cons i l =>
    have hi := hok i List.mem_cons_self
    unfold mergeCounts
    rw [List.map_cons, mergeLoop, if_pos rfl]
    simp only
    rw [fields_line fr hi, gstate_new fr hi, mergeLoop_runs fr l i.2.dropLast [i] (by simp) (by intro j hj; rw [List.mem_singleton] at hj; rw [hj]; exact hi)
      (fun w hw => hi.word w (List.dropLast_subset _ hw)) fun j hj => hok j (List.mem_cons_of_mem _ hj)]
    rw [runs_cons, List.flatMap_cons]
    rfl

theorem printLoop_runs (s : Str) (cs : Nat) : ∀ (l : List Item) (t : Str) (c : Nat),
    printLoop s cs t c (l.map fun i => (i.2.getLastD [], total i.2 (fr i.1))) =
      outLine s t cs (c + ((l.takeWhile fun i => decide (i.2.getLastD [] = t)).map fun i => total i.2 (fr i.1)).sum) ::
      (runs (fun i : Item => i.2.getLastD []) (l.dropWhile fun i => decide (i.2.getLastD [] = t))).map fun p => outLine s p.1 cs (p.2.map fun i => total i.2 (fr i.1)).sum := by
  intro l
  induction l with
  | nil => intro t c; simp [printLoop, runs]
  | cons i l ih =>
    intro t c
    rw [List.map_cons]
    show (if t = i.2.getLastD [] then printLoop s cs t (c + total i.2 (fr i.1)) (l.map fun i => (i.2.getLastD [], total i.2 (fr i.1)))
      else outLine s t cs c :: printLoop s cs (i.2.getLastD []) (total i.2 (fr i.1)) (l.map fun i => (i.2.getLastD [], total i.2 (fr i.1)))) = _
    by_cases he : i.2.getLastD [] = t
    · rw [if_pos he.symm, List.takeWhile_cons_of_pos (by simpa using he), List.dropWhile_cons_of_pos (by simpa using he), ih t, List.map_cons, List.sum_cons, Nat.add_assoc]
    · rw [if_neg (fun hc => he hc.symm), List.takeWhile_cons_of_neg (by simpa using he), List.dropWhile_cons_of_neg (by simpa using he), ih]
      rw [runs_cons, List.map_cons, List.map_cons, List.sum_cons]
      rfl

theorem printCounts_runs (s : List Str) {g : List Item} (hne : g ≠ []) :
    printCounts (gstate fr s g) =
      (runs (fun i : Item => i.2.getLastD []) g).map fun p => outLine (joinWords s) p.1 (cc fr g).2 (p.2.map fun i => total i.2 (fr i.1)).sum := by
  cases g with
  | nil => exact absurd rfl hne
  | cons i l =>
    show printLoop (joinWords s) (cc fr (i :: l)).2 (i.2.getLastD []) (total i.2 (fr i.1)) (l.map fun i => (i.2.getLastD [], total i.2 (fr i.1))) = _
    rw [printLoop_runs fr _ _ l, runs_cons, List.map_cons, List.map_cons, List.sum_cons]

/-! ### The sums -/

theorem sum_cover (val : Nat → Nat) : ∀ (D U : List Nat), D.Nodup → U.Nodup → (∀ n ∈ D, n ∈ U) → (∀ n ∈ U, n ∉ D → val n = 0) →
    (D.map val).sum = (U.map val).sum := by
  intro D
  induction D with
  | nil =>
    intro U _ _ _ h0
    rw [sum_zeros fun n hn => h0 n hn (by simp)]
    rfl
  | cons d D ih =>
    intro U hD hU hsub h0
    obtain ⟨hd, hD⟩ := List.nodup_cons.1 hD
    have hp := List.perm_cons_erase (hsub d List.mem_cons_self)
    rw [(hp.map val).sum_nat, List.map_cons, List.map_cons, List.sum_cons, List.sum_cons]
    congr 1
    apply ih _ hD (hU.erase d)
    · intro n hn
      exact (List.mem_erase_of_ne (fun e : n = d => hd (by rw [← e]; exact hn))).2 (hsub n (List.mem_cons_of_mem _ hn))
    · intro n hn hnD
      obtain ⟨h1, h2⟩ := (List.Nodup.mem_erase_iff hU).1 hn
      apply h0 n h2
      rw [List.mem_cons]
      rintro (h | h)
      · exact h1 h
      · exact hnD h

/-- The counts of the history are added once for each fragment. -/
theorem cc_sum (s : List Str) : ∀ (g : List Item), (∀ i ∈ g, i.2.dropLast = s) →
    ∃ D : List Nat, D.Nodup ∧ (∀ n, n ∈ D ↔ ∃ i ∈ g, i.1 = n) ∧ (∀ n, showNat n ∈ (cc fr g).1 ↔ n ∈ D) ∧ (cc fr g).2 = (D.map fun n => total s (fr n)).sum := by
  intro g
  induction hn : g.length generalizing g with
  | zero =>
    intro _
    have : g = [] := List.length_eq_zero_iff.1 hn
    subst this
    exact ⟨[], List.nodup_nil, by simp, by simp [cc], rfl⟩
  | succ m ih =>
    intro h
    rcases List.eq_nil_or_concat g with rfl | ⟨g', i, rfl⟩
    · cases hn
    · rw [List.concat_eq_append] at hn h ⊢
      obtain ⟨D, h1, h2, h3, h4⟩ := ih g' (by simp at hn; exact hn) fun j hj => h j (by simp [hj])
      have hi := h i (by simp)
      rw [cc_snoc]
      by_cases hm : showNat i.1 ∈ (cc fr g').1
      · rw [if_pos hm]
        refine ⟨D, h1, ?_, h3, h4⟩
        intro n
        rw [h2]
        constructor
        · rintro ⟨j, hj, e⟩; exact ⟨j, List.mem_append_left _ hj, e⟩
        · rintro ⟨j, hj, e⟩
          rw [List.mem_append, List.mem_singleton] at hj
          rcases hj with hj | rfl
          · exact ⟨j, hj, e⟩
          · exact (h2 n).1 (e ▸ (h3 _).1 hm)
      · rw [if_neg hm]
        have hm' : i.1 ∉ D := fun hc => hm ((h3 _).2 hc)
        refine ⟨i.1 :: D, List.nodup_cons.2 ⟨hm', h1⟩, ?_, ?_, ?_⟩
        · intro n
          rw [List.mem_cons, h2]
          constructor
          · rintro (rfl | ⟨j, hj, e⟩)
            · exact ⟨i, by simp, rfl⟩
            · exact ⟨j, List.mem_append_left _ hj, e⟩
          · rintro ⟨j, hj, e⟩
            rw [List.mem_append, List.mem_singleton] at hj
            rcases hj with hj | rfl
            · exact Or.inr ⟨j, hj, e⟩
            · exact Or.inl e.symm
        · intro n
          rw [List.mem_cons, List.mem_cons, h3]
          exact ⟨fun h => h.imp showNat_inj id, fun h => h.imp (congrArg _) id⟩
        · simp only
          rw [List.map_cons, List.sum_cons, h4, hi]; omega

end

end Thot.NgramScripts
