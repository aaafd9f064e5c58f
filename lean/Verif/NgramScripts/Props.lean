import Verif.NgramScripts.MrProps
/-!
C249, C250: counting a corpus divided in fragments; the option `-unk`.
-/
namespace Thot.NgramScripts

open Thot
open Thot.SentHandler (joinWords Word fields_join)
open Thot.Awk (fields)
open Thot.Vocab (showNat)
open Thot.PhrTools (join_append join_inj leText IsSort Contig runs runs_contig perm_map_lift)

/-! ### Fragments -/

theorem split_eq {k : Nat} (hk : 1 ≤ k) : ∀ (fuel : Nat) (corpus : List (List Str)), corpus.length ≤ fuel →
    ∃ chunks : List (List (List Str)), split k fuel (corpus.map joinWords) = chunks.map (fun c => c.map joinWords) ∧ chunks.flatten = corpus ∧ ∀ c ∈ chunks, c ≠ [] := by
  intro fuel
  induction fuel with
  | zero =>
    intro corpus h
    have : corpus = [] := List.length_eq_zero_iff.1 (by omega)
    subst this
    exact ⟨[], rfl, rfl, by simp⟩
  | succ fuel ih =>
    intro corpus h
    cases corpus with
    | nil => exact ⟨[], rfl, rfl, by simp⟩
    | cons s corpus =>
      obtain ⟨chunks, h1, h2, h3⟩ := ih ((s :: corpus).drop k) (by rw [List.length_drop]; omega)
      refine ⟨(s :: corpus).take k :: chunks, ?_, ?_, ?_⟩
      · rw [List.map_cons, List.map_cons, split, ← List.map_cons, ← List.map_take, ← List.map_drop, h1]
      · rw [List.flatten_cons, h2, List.take_append_drop]
      · intro c hc
        rcases List.mem_cons.1 hc with rfl | hc
        · intro he
          have := congrArg List.length he
          rw [List.length_take, List.length_cons, List.length_nil] at this
          omega
        · exact h3 c hc

theorem countLine_join {g : List Str} (a b : Str) (c : Nat) : countLine c (joinWords (g ++ [a, b])) = joinWords (g ++ [a, b, showNat c]) := by
  unfold countLine
  have := join_snoc (g ++ [a, b]) (showNat c) (by simp)
  rw [← this]
  simp

/-- The lines of the file `counts`. -/
theorem counts_items {n : Nat} (hn : 1 ≤ n) (fr : Nat → List (List Str)) : ∀ (chunks : List (List (List Str))) (outs : List (List Str)) (c0 : Nat),
    (∀ c ∈ chunks, c ≠ [] ∧ Corpus c) → (∀ (k : Nat) c, chunks[k]? = some c → fr (c0 + k) = c) → Outputs n (chunks.map fun c => c.map joinWords) outs →
    ∃ items : List Item, items.Nodup ∧ countsFile c0 outs = items.map (lineOf fr) ∧
      ∀ i, i ∈ items ↔ (c0 ≤ i.1 ∧ i.1 < c0 + chunks.length) ∧ 1 ≤ i.2.length ∧ i.2.length ≤ n ∧ 0 < total i.2 (fr i.1) := by
  intro chunks
  induction chunks with
  | nil =>
    intro outs c0 _ _ h
    cases outs with
    | nil => exact ⟨[], List.nodup_nil, rfl, fun i => ⟨fun h => absurd h (by simp), fun h => absurd h.1 (by simp only [List.length_nil]; omega)⟩⟩
    | cons => exact absurd h (by simp [Outputs])
  | cons c chunks ih =>
    intro outs c0 hc hfr h
    cases outs with
    | nil => exact absurd h (by simp [Outputs])
    | cons o outs =>
      obtain ⟨ho, h⟩ := h
      obtain ⟨items, h1, h2, h3⟩ := ih outs (c0 + 1) (fun c hc' => hc c (List.mem_cons_of_mem _ hc')) (by
        intro k c' hk
        rw [show c0 + 1 + k = c0 + (k + 1) by omega]
        exact hfr (k + 1) c' (by rw [List.getElem?_cons_succ]; exact hk)) h
      obtain ⟨gs, hg1, hg2, hg3⟩ := C248_counts n hn c (hc c List.mem_cons_self).1 (hc c List.mem_cons_self).2 o ho
      have hf0 : fr c0 = c := hfr 0 c rfl
      refine ⟨gs.map (fun g => (c0, g)) ++ items, ?_, ?_, ?_⟩
      · rw [List.nodup_append]
        refine ⟨?_, h1, ?_⟩
        · rw [List.nodup_iff_pairwise_ne, List.pairwise_map]
          exact (List.nodup_iff_pairwise_ne.1 hg1).imp fun h e => h (Prod.mk.inj e).2
        · rintro a ha b hb rfl
          obtain ⟨g, _, rfl⟩ := List.mem_map.1 ha
          have := ((h3 _).1 hb).1.1
          simp only at this; omega
      · show o.map (countLine c0) ++ countsFile (c0 + 1) outs = _
        rw [h2, List.map_append, hg3, List.map_map, List.map_map]
        congr 1
        apply List.map_congr_left
        intro g _
        show countLine c0 (ngramLine c g) = lineOf fr (c0, g)
        unfold ngramLine
        rw [countLine_join]
        unfold lineOf iwords
        simp only [hf0]
      · rintro ⟨m, g⟩
        rw [List.mem_append, h3]
        simp only [List.length_cons]
        constructor
        · rintro (hm | ⟨h4, h5⟩)
          · obtain ⟨g', hg', e⟩ := List.mem_map.1 hm
            injection e with e1 e2
            subst e1; subst e2
            have := (hg2 _).1 hg'
            exact ⟨by omega, this.1, this.2.1, by rw [hf0]; exact this.2.2⟩
          · exact ⟨by omega, h5⟩
        · rintro ⟨h4, h5, h6, h7⟩
          by_cases hm : m = c0
          · subst hm
            left
            exact List.mem_map.2 ⟨g, (hg2 g).2 ⟨h5, h6, by rw [hf0] at h7; exact h7⟩, rfl⟩
          · right
            exact ⟨by omega, h5, h6, h7⟩

/-! ### Occurrences of histories -/

theorem occ_mono {g g' l : List Str} (h : g' <+: g) : occ g l ≤ occ g' l := by
  unfold occ
  apply List.countP_mono_left
  intro k _ hk
  rw [decide_eq_true_eq] at hk ⊢
  exact h.trans hk

theorem sum_mono {α : Type} {f g : α → Nat} {l : List α} (h : ∀ a ∈ l, f a ≤ g a) : (l.map f).sum ≤ (l.map g).sum := by
  induction l with
  | nil => simp
  | cons a l ih =>
    rw [List.map_cons, List.map_cons, List.sum_cons, List.sum_cons]
    have := h a List.mem_cons_self
    have := ih fun b hb => h b (List.mem_cons_of_mem _ hb)
    omega

theorem total_mono {g g' : List Str} (h : g' <+: g) (corpus : List (List Str)) : total g corpus ≤ total g' corpus :=
  sum_mono fun _ _ => occ_mono h

theorem total_pos {g : List Str} {corpus : List (List Str)} (h : 0 < total g corpus) : ∃ s ∈ corpus, ∃ k, k < (padded s).length ∧ g <+: (padded s).drop k := by
  apply Classical.byContradiction
  intro hno
  have : total g corpus = 0 := by
    apply sum_zeros
    intro s hs
    unfold occ
    apply countP_zero
    intro k hk
    rw [decide_eq_false_iff_not]
    exact fun hp => hno ⟨s, hs, k, List.mem_range.1 hk, hp⟩
  omega

theorem total_pos_of {g : List Str} {corpus : List (List Str)} {s : List Str} (hs : s ∈ corpus) {k : Nat} (hk : k < (padded s).length)
    (hp : g <+: (padded s).drop k) : 0 < total g corpus := by
  have h1 : 0 < occ g (padded s) := List.countP_pos_iff.2 ⟨k, List.mem_range.2 hk, by simpa using hp⟩
  unfold total
  have : ∀ l : List (List Str), s ∈ l → occ g (padded s) ≤ (l.map fun s => occ g (padded s)).sum := by
    intro l
    induction l with
    | nil => intro h; cases h
    | cons a l ih =>
      intro h
      rw [List.map_cons, List.sum_cons]
      rcases List.mem_cons.1 h with rfl | h
      · omega
      · have := ih h; omega
  have := this corpus hs
  omega

/-- Everything but the end of a sentence is followed by a word. -/
theorem extends_of {s : List Str} {w : Str} {corpus corpus' : List (List Str)} (hc : Corpus corpus)
    (h1 : 0 < total (s ++ [w]) corpus) (h2 : 0 < total s corpus') : ∃ w', 0 < total (s ++ [w']) corpus' := by
  obtain ⟨x, hx, k, hk, hp⟩ := total_pos h2
  obtain ⟨r, hr⟩ := hp
  cases r with
  | cons w' r =>
    exact ⟨w', total_pos_of hx hk ⟨r, by rw [← hr]; simp⟩⟩
  | nil =>
    exfalso
    rw [List.append_nil] at hr
    have hsne : s ≠ [] := by
      rintro rfl
      have := congrArg List.length hr
      rw [List.length_drop, List.length_nil] at this
      omega
    have hlast : "</s>".toList ∈ s.getLast? := by
      rw [hr, List.getLast?_drop, if_neg (by omega)]
      unfold padded
      rw [List.getLast?_concat]; rfl
    obtain ⟨y, hy, k', hk', hp'⟩ := total_pos h1
    have hs' := List.getLast?_eq_some_iff.1 hlast
    obtain ⟨s0, rfl⟩ := hs'
    -- the symbol at a position that is not the last
    obtain ⟨r', hr'⟩ := hp'
    have hget : (padded y)[k' + s0.length]? = some "</s>".toList := by
      rw [← List.getElem?_drop, ← hr']; simp
    have hlt : k' + s0.length + 1 < (padded y).length := by
      have := congrArg List.length hr'
      rw [List.length_drop] at this
      simp only [List.length_append, List.length_cons, List.length_nil] at this
      omega
    rw [padded_length] at hlt
    rw [padded_get] at hget
    by_cases h0 : k' + s0.length = 0
    · rw [if_pos h0] at hget; injection hget with e; exact absurd e (by decide)
    · rw [if_neg h0, if_neg (by omega)] at hget
      exact (hc y hy _ (List.mem_of_getElem? hget)).2.2 rfl

theorem total_flatten (g : List Str) (chunks : List (List (List Str))) : total g chunks.flatten = (chunks.map (total g)).sum := by
  induction chunks with
  | nil => rfl
  | cons c chunks ih =>
    rw [List.flatten_cons, List.map_cons, List.sum_cons, ← ih]
    unfold total
    rw [List.map_append, List.sum_append]

theorem range_map {α β : Type} (f : α → β) (d : α) : ∀ (l : List α) (a : Nat), (List.range' a l.length).map (fun j => f (l.getD (j - a) d)) = l.map f := by
  intro l a
  apply List.ext_getElem
  · simp
  · intro m h1 h2
    simp only [List.length_map] at h2
    simp [List.getD_eq_getElem?_getD, h2]

theorem outLine_ngram (corpus : List (List Str)) (s : List Str) (w : Str) (hw : ∀ u ∈ s, Word u) :
    outLine (joinWords s) w (total s corpus) (total (s ++ [w]) corpus) = ngramLine corpus (s ++ [w]) := by
  unfold outLine ngramLine
  rw [List.dropLast_concat]
  cases s with
  | nil => rfl
  | cons a s =>
    rw [if_neg (join_ne_nil (by simp) hw), List.append_assoc, join_append (a :: s) _ (by simp) (by simp)]
    rfl

/-- `thot_get_ngram_counts_mr`: whatever the size of the fragments, the order in which the arrays are visited and the order `sort` gives to
equal lines, the output is that of `thot_get_ngram_counts` for the whole corpus, in some order: one line for each n-gram that occurs, with the
number of occurrences of its history and of the n-gram. -/
theorem C249_map_reduce (n : Nat) (hn : 1 ≤ n) (k : Nat) (hk : 1 ≤ k) (corpus : List (List Str)) (hne : corpus ≠ []) (hc : Corpus corpus) (out : List Str)
    (h : IsOutputMr n k (corpus.map joinWords) out) : CountsOf n corpus out := by
  obtain ⟨outs, hout, sorted, ⟨hperm, hord⟩, rfl⟩ := h
  rw [List.length_map] at hout
  obtain ⟨chunks, hs1, hs2, hs3⟩ := split_eq hk corpus.length corpus (Nat.le_refl _)
  rw [hs1] at hout
  have hcc : ∀ c ∈ chunks, c ≠ [] ∧ Corpus c := fun c hc' => ⟨hs3 c hc', fun s hs => hc s (by rw [← hs2]; exact List.mem_flatten.2 ⟨c, hc', hs⟩)⟩
  let fr : Nat → List (List Str) := fun j => chunks.getD (j - 1) []
  obtain ⟨items, hi1, hi2, hi3⟩ := counts_items hn fr chunks outs 1 hcc (by
    intro k c hk
    show chunks.getD (1 + k - 1) [] = c
    rw [Nat.add_sub_cancel_left, List.getD_eq_getElem?_getD, hk]; rfl) hout
  have hfr : ∀ j, 1 ≤ j ∧ j < 1 + chunks.length → fr j ∈ chunks := by
    intro j hj
    show chunks.getD (j - 1) [] ∈ chunks
    rw [List.getD_eq_getElem?_getD, List.getElem?_eq_getElem (by omega)]
    exact List.getElem_mem _
  have hok0 : ∀ i ∈ items, ItemOk fr i := by
    intro i hi
    obtain ⟨h1, h2, h3, h4⟩ := (hi3 i).1 hi
    refine ⟨by intro e; rw [e] at h2; simp at h2, total_words (hcc _ (hfr _ h1)).2 h4, ?_⟩
    have := total_mono (List.dropLast_prefix i.2) (fr i.1)
    omega
  rw [hi2, List.map_map] at hperm
  obtain ⟨E, hE, rfl⟩ := perm_map_lift _ hperm
  have hok : ∀ i ∈ E, ItemOk fr i := fun i hi => hok0 i (hE.mem_iff.1 hi)
  have hmem : ∀ i, i ∈ E ↔ (1 ≤ i.1 ∧ i.1 < 1 + chunks.length) ∧ 1 ≤ i.2.length ∧ i.2.length ≤ n ∧ 0 < total i.2 (fr i.1) := fun i => hE.mem_iff.trans (hi3 i)
  have hlines : (E.map (addLen ∘ lineOf fr)).map dropLen = E.map (lineOf fr) := by
    rw [List.map_map]
    exact List.map_congr_left fun i hi => dropLen_line fr (hok i hi)
  rw [hlines]
  have hord' : (E.map fun i => addLen (lineOf fr i)).Pairwise fun x y => leText x y = true := hord
  have hEnd : E.Nodup := hE.nodup_iff.2 hi1
  -- sums over the fragments
  have hU : (List.range' 1 chunks.length).Nodup := List.nodup_range'
  have hsumU : ∀ g, ((List.range' 1 chunks.length).map fun j => total g (fr j)).sum = total g corpus := by
    intro g
    rw [← hs2, total_flatten, ← range_map (total g) [] chunks 1]
  have hpos_of : ∀ g j, 1 ≤ j ∧ j < 1 + chunks.length → 0 < total g (fr j) → 0 < total g corpus := by
    intro g j hj hp
    obtain ⟨x, hx, k, hk, hpre⟩ := total_pos hp
    exact total_pos_of (by rw [← hs2]; exact List.mem_flatten.2 ⟨_, hfr j hj, hx⟩) hk hpre
  have hpos_ex : ∀ g, 0 < total g corpus → ∃ j, (1 ≤ j ∧ j < 1 + chunks.length) ∧ 0 < total g (fr j) := by
    intro g hp
    obtain ⟨x, hx, k, hk, hpre⟩ := total_pos hp
    rw [← hs2] at hx
    obtain ⟨c, hc', hx⟩ := List.mem_flatten.1 hx
    obtain ⟨m, hm⟩ := List.getElem?_of_mem hc'
    obtain ⟨hml, _⟩ := List.getElem?_eq_some_iff.1 hm
    refine ⟨m + 1, by omega, total_pos_of (s := x) ?_ hk hpre⟩
    show x ∈ chunks.getD (m + 1 - 1) []
    rw [Nat.add_sub_cancel, List.getD_eq_getElem?_getD, hm]; exact hx
  have hE0 : E ≠ [] := by
    intro he
    have h1 : 0 < total ["<s>".toList] corpus := by
      rw [total_symbol (Or.inl rfl) hc]; exact List.length_pos_iff.2 hne
    obtain ⟨j, hj, hp⟩ := hpos_ex _ h1
    have := (hmem (j, ["<s>".toList])).2 ⟨hj, by simp, by simpa using hn, hp⟩
    rw [he] at this; cases this
  -- the groups
  obtain ⟨ks, hksN, hksM, hks⟩ := runs_contig (fun i : Item => i.2.dropLast) E (contig_hist fr hok hord')
  let g : List Str → List Item := fun s => E.filter fun i => decide (i.2.dropLast = s)
  have hgm : ∀ s, ∀ i ∈ g s, i ∈ E ∧ i.2.dropLast = s ∧ i.2 = s ++ [i.2.getLastD []] := by
    intro s i hi
    obtain ⟨h1, h2⟩ := List.mem_filter.1 hi
    have h2 := of_decide_eq_true h2
    refine ⟨h1, h2, ?_⟩
    obtain ⟨s', w, e⟩ := list_last (hok i h1).ne
    rw [e, List.dropLast_concat] at h2
    rw [e, getLastD_snoc, h2]
  have hgc : ∀ s, Contig (fun i : Item => i.2.getLastD []) (g s) := by
    intro s a b c hsub hk
    have h1 : ∀ x ∈ [a, b, c], x.2 = s ++ [x.2.getLastD []] := fun x hx => (hgm s x (hsub.subset hx)).2.2
    have h2 := contig_ngram fr hok hord' a b c (hsub.trans List.filter_sublist) (by
      simp only at hk ⊢
      rw [h1 a (by simp), h1 c (by simp), hk])
    simp only at h2 ⊢
    rw [h2]
  obtain ⟨ts, hts⟩ : ∃ ts : List Str → List Str, ∀ s, (ts s).Nodup ∧ (∀ t, t ∈ ts s ↔ ∃ i ∈ g s, i.2.getLastD [] = t) ∧
      runs (fun i : Item => i.2.getLastD []) (g s) = (ts s).map fun t => (t, (g s).filter fun i => decide (i.2.getLastD [] = t)) := by
    refine ⟨fun s => (runs (fun i : Item => i.2.getLastD []) (g s)).map Prod.fst, fun s => ?_⟩
    obtain ⟨l, h1, h2, h3⟩ := runs_contig (fun i : Item => i.2.getLastD []) (g s) (hgc s)
    have : (runs (fun i : Item => i.2.getLastD []) (g s)).map Prod.fst = l := by
      rw [h3, List.map_map]
      exact List.map_id l
    simp only [this]
    exact ⟨h1, h2, h3⟩
  -- the counts
  have hcs : ∀ s ∈ ks, (cc fr (g s)).2 = total s corpus := by
    intro s hs
    obtain ⟨D, h1, h2, _, h4⟩ := cc_sum fr s (g s) fun i hi => (hgm s i hi).2.1
    rw [h4, ← hsumU s]
    apply sum_cover _ D _ h1 hU
    · intro m hm
      obtain ⟨i, hi, rfl⟩ := (h2 m).1 hm
      have := ((hmem i).1 (hgm s i hi).1).1
      rw [List.mem_range'_1]; omega
    · intro m hm hmD
      rw [List.mem_range'_1] at hm
      apply Nat.eq_zero_of_not_pos
      intro hp
      obtain ⟨i, hi, his⟩ := (hksM s).1 hs
      obtain ⟨hi1', hi2', hi3', hi4'⟩ := (hmem i).1 hi
      have hi5 := (hgm s i (List.mem_filter.2 ⟨hi, by simpa using his⟩)).2.2
      rw [hi5] at hi4'
      obtain ⟨w', hw'⟩ := extends_of (hcc _ (hfr _ hi1')).2 hi4' hp
      apply hmD
      refine (h2 m).2 ⟨(m, s ++ [w']), List.mem_filter.2 ⟨(hmem _).2 ⟨hm, by simp, ?_, hw'⟩, by simp⟩, rfl⟩
      rw [hi5] at hi3'
      simp only [List.length_append, List.length_cons, List.length_nil] at hi3' ⊢
      exact hi3'
  have hcst : ∀ s w, s.length + 1 ≤ n → (((g s).filter fun i => decide (i.2.getLastD [] = w)).map fun i => total i.2 (fr i.1)).sum = total (s ++ [w]) corpus := by
    intro s w hsn
    have e1 : ∀ i ∈ (g s).filter (fun i => decide (i.2.getLastD [] = w)), i.2 = s ++ [w] := by
      intro i hi
      obtain ⟨h1, h2⟩ := List.mem_filter.1 hi
      rw [(hgm s i h1).2.2, of_decide_eq_true h2]
    have e2 : ((g s).filter fun i => decide (i.2.getLastD [] = w)).map (fun i => total i.2 (fr i.1)) =
        (((g s).filter fun i => decide (i.2.getLastD [] = w)).map Prod.fst).map fun j => total (s ++ [w]) (fr j) := by
      rw [List.map_map]
      apply List.map_congr_left
      intro i hi
      show total i.2 (fr i.1) = total (s ++ [w]) (fr i.1)
      rw [e1 i hi]
    rw [e2, ← hsumU]
    apply sum_cover _ _ _ ?_ hU
    · intro m hm
      obtain ⟨i, hi, rfl⟩ := List.mem_map.1 hm
      have := ((hmem i).1 (hgm s i (List.mem_filter.1 hi).1).1).1
      rw [List.mem_range'_1]; omega
    · intro m hm hmD
      rw [List.mem_range'_1] at hm
      apply Nat.eq_zero_of_not_pos
      intro hp
      apply hmD
      refine List.mem_map.2 ⟨(m, s ++ [w]), List.mem_filter.2 ⟨List.mem_filter.2 ⟨(hmem _).2 ⟨hm, by simp, by simpa using hsn, hp⟩, by simp⟩, ?_⟩, rfl⟩
      simp only [decide_eq_true_eq]
      exact getLastD_snoc s w []
    · rw [List.nodup_iff_pairwise_ne, List.pairwise_map]
      refine List.Pairwise.imp_of_mem ?_ (List.nodup_iff_pairwise_ne.1 ((hEnd.filter _).filter _))
      intro a b ha hb hab hfst
      exact hab (Prod.ext hfst (by rw [e1 a ha, e1 b hb]))
  -- the n-grams
  have hall : ∀ s w, w ∈ ts s ↔ ∃ i ∈ E, i.2 = s ++ [w] := by
    intro s w
    rw [(hts s).2.1]
    constructor
    · rintro ⟨i, hi, rfl⟩; exact ⟨i, (hgm s i hi).1, (hgm s i hi).2.2⟩
    · rintro ⟨i, hi, e⟩
      exact ⟨i, List.mem_filter.2 ⟨hi, by rw [e, List.dropLast_concat]; simp⟩, by rw [e, getLastD_snoc]⟩
  refine ⟨ks.flatMap fun s => (ts s).map fun w => s ++ [w], ?_, ?_, ?_⟩
  · rw [List.nodup_iff_pairwise_ne, List.pairwise_flatMap]
    constructor
    · intro s _
      rw [List.pairwise_map]
      exact (List.nodup_iff_pairwise_ne.1 (hts s).1).imp fun h e => h (List.singleton_inj.1 (List.append_cancel_left e))
    · refine (List.nodup_iff_pairwise_ne.1 hksN).imp ?_
      rintro a b hab x hx y hy rfl
      obtain ⟨w, _, e1⟩ := List.mem_map.1 hx
      obtain ⟨w', _, e2⟩ := List.mem_map.1 hy
      have := congrArg List.dropLast (e1.trans e2.symm)
      rw [List.dropLast_concat, List.dropLast_concat] at this
      exact hab this
  · intro x
    rw [List.mem_flatMap]
    constructor
    · rintro ⟨s, _, hx⟩
      obtain ⟨w, hw, rfl⟩ := List.mem_map.1 hx
      obtain ⟨i, hi, e⟩ := (hall s w).1 hw
      obtain ⟨h1, h2, h3, h4⟩ := (hmem i).1 hi
      rw [e] at h2 h3 h4
      exact ⟨h2, h3, hpos_of _ _ h1 h4⟩
    · rintro ⟨h1, h2, h3⟩
      obtain ⟨j, hj, hp⟩ := hpos_ex x h3
      have hi := (hmem (j, x)).2 ⟨hj, h1, h2, hp⟩
      obtain ⟨s, w, rfl⟩ := list_last (g := x) (by rintro rfl; simp at h1)
      refine ⟨s, (hksM s).2 ⟨_, hi, List.dropLast_concat⟩, List.mem_map.2 ⟨w, (hall s w).2 ⟨_, hi, rfl⟩, rfl⟩⟩
  · rw [mergeCounts_runs fr hE0 hok, hks, List.flatMap_map, List.map_flatMap, List.flatMap_def, List.flatMap_def]
    congr 1
    apply List.map_congr_left
    intro s hs
    obtain ⟨i, hi, his⟩ := (hksM s).1 hs
    have hgs : g s ≠ [] := List.ne_nil_of_mem (List.mem_filter.2 ⟨hi, by simpa using his⟩)
    show printCounts (gstate fr s (g s)) = _
    rw [printCounts_runs fr s hgs, (hts s).2.2, List.map_map, List.map_map]
    apply List.map_congr_left
    intro w hw
    obtain ⟨i', hi', e'⟩ := (hall s w).1 hw
    show outLine (joinWords s) w (cc fr (g s)).2 (((g s).filter fun i => decide (i.2.getLastD [] = w)).map fun i => total i.2 (fr i.1)).sum = ngramLine corpus (s ++ [w])
    rw [hcs s hs, hcst s w (by have := ((hmem i').1 hi').2.2.1; rw [e'] at this; simpa using this)]
    exact outLine_ngram corpus s w fun u hu => (hok i' hi').word u (by rw [e']; exact List.mem_append_left _ hu)

/-! ### -unk -/

/-- The corpus where the first occurrence of each word, in the order of the file, is replaced by the unknown word. -/
def unked (corpus : List (List Str)) : List (List Str) :=
  corpus.mapIdx fun i s => s.mapIdx fun j w => if w ∈ (corpus.take i).flatten ++ s.take j then w else "<unk>".toList

theorem unkWords_spec : ∀ (s V P : List Str), (∀ w, w ∈ V ↔ w ∈ P) →
    (unkWords V s).2 = s.mapIdx (fun j w => if w ∈ P ++ s.take j then w else "<unk>".toList) ∧ ∀ w, w ∈ (unkWords V s).1 ↔ w ∈ P ++ s := by
  intro s
  induction s with
  | nil => intro V P h; exact ⟨rfl, fun w => by rw [List.append_nil]; exact h w⟩
  | cons a s ih =>
    intro V P h
    have hf : (fun (j : Nat) (w : Str) => if w ∈ P ++ (a :: s).take (j + 1) then w else "<unk>".toList) =
        fun j w => if w ∈ (P ++ [a]) ++ s.take j then w else "<unk>".toList := by
      funext j w
      rw [List.take_succ_cons, List.append_assoc]; rfl
    rw [List.mapIdx_cons, hf]
    have h0 : (a ∈ P ++ (a :: s).take 0) ↔ a ∈ P := by simp
    simp only [h0]
    unfold unkWords
    by_cases ha : a ∈ V
    · obtain ⟨h1, h2⟩ := ih V (P ++ [a]) (by
        intro w
        rw [List.mem_append, List.mem_singleton, h]
        constructor
        · exact Or.inl
        · rintro (hw | rfl)
          · exact hw
          · exact (h w).1 ha)
      rw [if_pos ha, if_pos ((h a).1 ha), h1]
      refine ⟨rfl, fun w => ?_⟩
      rw [h2, List.append_assoc]; rfl
    · obtain ⟨h1, h2⟩ := ih (a :: V) (P ++ [a]) (by
        intro w
        rw [List.mem_cons, List.mem_append, List.mem_singleton, h]
        exact Or.comm)
      rw [if_neg ha, if_neg (fun hc => ha ((h a).2 hc)), h1]
      refine ⟨rfl, fun w => ?_⟩
      rw [h2, List.append_assoc]; rfl

theorem unkLines_spec : ∀ (corpus : List (List Str)) (V P : List Str), (∀ w, w ∈ V ↔ w ∈ P) → (∀ s ∈ corpus, ∀ w ∈ s, Word w) →
    unkLines V (corpus.map joinWords) =
      (corpus.mapIdx fun i s => s.mapIdx fun j w => if w ∈ (P ++ (corpus.take i).flatten) ++ s.take j then w else "<unk>".toList).map joinWords := by
  intro corpus
  induction corpus with
  | nil => intro V P _ _; rfl
  | cons s corpus ih =>
    intro V P h hw
    obtain ⟨h1, h2⟩ := unkWords_spec s V P h
    rw [List.map_cons, unkLines, fields_join (hw s List.mem_cons_self), h1, ih _ (P ++ s) h2 fun s' hs' => hw s' (List.mem_cons_of_mem _ hs'),
      List.mapIdx_cons, List.map_cons, List.take_zero, List.flatten_nil, List.append_nil]
    congr 2
    congr 1
    funext i s'
    rw [List.take_succ_cons, List.flatten_cons, List.append_assoc]

theorem word_unk : Word "<unk>".toList := ⟨by decide, by decide⟩

theorem mem_mapIdx_if {s : List Str} {P : Nat → Str → Prop} [∀ j w, Decidable (P j w)] {x : Str}
    (hx : x ∈ s.mapIdx fun j w => if P j w then w else "<unk>".toList) : x ∈ s ∨ x = "<unk>".toList := by
  obtain ⟨j, hj, rfl⟩ := List.mem_mapIdx.1 hx
  split
  · exact Or.inl (List.getElem_mem _)
  · exact Or.inr rfl

theorem corpus_unked {corpus : List (List Str)} (hc : Corpus corpus) : Corpus (unked corpus) := by
  intro s hs w hw
  obtain ⟨i, hi, rfl⟩ := List.mem_mapIdx.1 hs
  rcases mem_mapIdx_if hw with hw | rfl
  · exact hc _ (List.getElem_mem _) w hw
  · exact ⟨word_unk, by decide, by decide⟩

/-- The option `-unk` of both scripts: the counts are those of the corpus where the first occurrence of each word is replaced. -/
theorem C250_unk (n : Nat) (hn : 1 ≤ n) (corpus : List (List Str)) (hne : corpus ≠ []) (hc : Corpus corpus) (out : List Str) :
    (IsOutput n (unkLines [] (corpus.map joinWords)) out → CountsOf n (unked corpus) out) ∧
    ∀ k, 1 ≤ k → IsOutputMr n k (unkLines [] (corpus.map joinWords)) out → CountsOf n (unked corpus) out := by
  have h1 := unkLines_spec corpus [] [] (fun _ => Iff.rfl) fun s hs w hw => (hc s hs w hw).1
  have h2 : unkLines [] (corpus.map joinWords) = (unked corpus).map joinWords := by
    rw [h1]; unfold unked; simp only [List.nil_append]
  have hne' : unked corpus ≠ [] := by
    intro he
    have := congrArg List.length he
    unfold unked at this
    rw [List.length_mapIdx, List.length_nil] at this
    exact hne (List.length_eq_zero_iff.1 this)
  rw [h2]
  exact ⟨fun h => C248_counts n hn _ hne' (corpus_unked hc) out h, fun k hk h => C249_map_reduce n hn k hk _ hne' (corpus_unked hc) out h⟩

/-! The counts of words -/

theorem occ_word {s : List Str} {w : Str} (h1 : w ≠ "<s>".toList) (h2 : w ≠ "</s>".toList) : occ [w] (padded s) = s.count w := by
  have key : ∀ l : List Str, occ [w] l = l.count w := by
    intro l
    induction l with
    | nil => rfl
    | cons a l ih =>
      unfold occ at ih ⊢
      rw [List.length_cons, List.range_succ_eq_map, List.countP_cons, List.countP_map, List.count_cons]
      have e : (List.range l.length).countP ((fun k => decide ([w] <+: (a :: l).drop k)) ∘ Nat.succ) = l.count w := by
        rw [← ih]; rfl
      rw [e]
      congr 1
      by_cases haw : a = w
      · subst haw
        simp
      · have : ¬ w = a := fun h => haw h.symm
        simp [haw, this]
  rw [key]
  unfold padded
  rw [List.count_append, List.count_cons_of_ne h1.symm, List.count_eq_zero.2 (fun hm => h2 (List.mem_singleton.1 hm)), Nat.add_zero]

theorem total_word {w : Str} (h1 : w ≠ "<s>".toList) (h2 : w ≠ "</s>".toList) (corpus : List (List Str)) : total [w] corpus = corpus.flatten.count w := by
  unfold total
  rw [List.count_flatten]
  congr 1
  exact List.map_congr_left fun s _ => occ_word h1 h2

theorem unkWords_append (V a b : List Str) : (unkWords V (a ++ b)).2 = (unkWords V a).2 ++ (unkWords (unkWords V a).1 b).2 ∧
    (unkWords V (a ++ b)).1 = (unkWords (unkWords V a).1 b).1 := by
  induction a generalizing V with
  | nil => exact ⟨rfl, rfl⟩
  | cons x a ih =>
    rw [List.cons_append, unkWords, unkWords]
    by_cases hx : x ∈ V
    · rw [if_pos hx, if_pos hx, (ih V).1, (ih V).2]; exact ⟨rfl, rfl⟩
    · rw [if_neg hx, if_neg hx, (ih _).1, (ih _).2]; exact ⟨rfl, rfl⟩

/-- The words replaced, as a whole. -/
theorem unked_flatten : ∀ (corpus : List (List Str)) (V P : List Str), (∀ w, w ∈ V ↔ w ∈ P) →
    (corpus.mapIdx fun i s => s.mapIdx fun j w => if w ∈ (P ++ (corpus.take i).flatten) ++ s.take j then w else "<unk>".toList).flatten = (unkWords V corpus.flatten).2 := by
  intro corpus
  induction corpus with
  | nil => intro V P _; rfl
  | cons s corpus ih =>
    intro V P h
    obtain ⟨h1, h2⟩ := unkWords_spec s V P h
    rw [List.flatten_cons, (unkWords_append V s corpus.flatten).1, ← ih _ (P ++ s) h2, h1, List.mapIdx_cons, List.flatten_cons, List.take_zero, List.flatten_nil, List.append_nil]
    congr 3
    funext i s'
    rw [List.take_succ_cons, List.flatten_cons, List.append_assoc]

theorem count_unk {w : Str} (hw : w ≠ "<unk>".toList) : ∀ (ws V : List Str), (unkWords V ws).2.count w = if w ∈ V then ws.count w else ws.count w - 1 := by
  intro ws
  induction ws with
  | nil => intro V; simp [unkWords]
  | cons a ws ih =>
    intro V
    rw [unkWords]
    by_cases ha : a ∈ V
    · rw [if_pos ha]
      simp only
      by_cases haw : a = w
      · subst haw
        rw [List.count_cons_self, List.count_cons_self, ih, if_pos ha, if_pos ha]
      · rw [List.count_cons_of_ne haw, List.count_cons_of_ne haw, ih]
    · rw [if_neg ha]
      simp only
      rw [List.count_cons_of_ne hw.symm, ih]
      by_cases haw : a = w
      · subst haw
        rw [if_pos List.mem_cons_self, if_neg ha, List.count_cons_self]; omega
      · have hiff : w ∈ a :: V ↔ w ∈ V := by rw [List.mem_cons]; exact ⟨fun h => h.resolve_left fun e => haw e.symm, Or.inr⟩
        simp only [hiff, List.count_cons_of_ne haw]

theorem count_unk_self : ∀ (ws V : List Str), "<unk>".toList ∉ ws →
    ∃ D : List Str, D.Nodup ∧ (∀ w, w ∈ D ↔ w ∈ ws ∧ w ∉ V) ∧ (unkWords V ws).2.count "<unk>".toList = D.length := by
  intro ws
  induction ws with
  | nil => intro V _; exact ⟨[], List.nodup_nil, by simp, rfl⟩
  | cons a ws ih =>
    intro V hu
    have hu1 : "<unk>".toList ≠ a := fun e => hu (by rw [e]; exact List.mem_cons_self)
    have hu2 : "<unk>".toList ∉ ws := fun h => hu (List.mem_cons_of_mem _ h)
    rw [unkWords]
    by_cases ha : a ∈ V
    · obtain ⟨D, h1, h2, h3⟩ := ih V hu2
      rw [if_pos ha]
      simp only
      refine ⟨D, h1, ?_, by rw [List.count_cons_of_ne hu1.symm, h3]⟩
      intro w
      rw [h2, List.mem_cons]
      constructor
      · rintro ⟨h4, h5⟩; exact ⟨Or.inr h4, h5⟩
      · rintro ⟨h4 | h4, h5⟩
        · exact absurd (h4 ▸ ha) h5
        · exact ⟨h4, h5⟩
    · obtain ⟨D, h1, h2, h3⟩ := ih (a :: V) hu2
      rw [if_neg ha]
      simp only
      refine ⟨a :: D, List.nodup_cons.2 ⟨fun hc => ((h2 a).1 hc).2 List.mem_cons_self, h1⟩, ?_, by rw [List.count_cons_self, h3, List.length_cons]⟩
      intro w
      rw [List.mem_cons, List.mem_cons, h2, List.mem_cons]
      constructor
      · rintro (rfl | ⟨h4, h5⟩)
        · exact ⟨Or.inl rfl, ha⟩
        · exact ⟨Or.inr h4, fun h => h5 (Or.inr h)⟩
      · rintro ⟨h4 | h4, h5⟩
        · exact Or.inl h4
        · by_cases he : w = a
          · exact Or.inl he
          · exact Or.inr ⟨h4, fun h => h.elim he h5⟩

/-- The mass reserved: each word loses exactly one occurrence and the unknown word gets one for each different word; the number of words and
of sentences are kept. -/
theorem C250_mass (corpus : List (List Str)) (hc : Corpus corpus) (hu : "<unk>".toList ∉ corpus.flatten) :
    (∀ w ∈ corpus.flatten, total [w] (unked corpus) = total [w] corpus - 1) ∧
    (∃ vocab : List Str, vocab.Nodup ∧ (∀ w, w ∈ vocab ↔ w ∈ corpus.flatten) ∧ total ["<unk>".toList] (unked corpus) = vocab.length) ∧
    total [] (unked corpus) = total [] corpus ∧ total ["<s>".toList] (unked corpus) = total ["<s>".toList] corpus := by
  have hf : (unked corpus).flatten = (unkWords [] corpus.flatten).2 := by
    rw [← unked_flatten corpus [] [] fun _ => Iff.rfl]
    unfold unked
    simp only [List.nil_append]
  refine ⟨?_, ?_, ?_, ?_⟩
  · intro w hw
    obtain ⟨s, hs, hws⟩ := List.mem_flatten.1 hw
    obtain ⟨_, h1, h2⟩ := hc s hs w hws
    rw [total_word h1 h2, total_word h1 h2, hf, count_unk (fun e => hu (e ▸ hw)), if_neg (by simp)]
  · obtain ⟨D, h1, h2, h3⟩ := count_unk_self corpus.flatten [] hu
    refine ⟨D, h1, fun w => by rw [h2]; simp, ?_⟩
    rw [total_word (by decide) (by decide), hf, h3]
  · rw [total_nil, total_nil]
    unfold unked
    congr 1
    apply List.ext_getElem
    · simp
    · intro m h1 h2; simp
  · rw [total_symbol (Or.inl rfl) (corpus_unked hc), total_symbol (Or.inl rfl) hc]
    unfold unked
    simp

/-! ### Non-vacuity -/

/-- In "a b a", "b": the words "a" and "b" lose one occurrence each, the unknown word has two. -/
example : unked [[['a'], ['b'], ['a']], [['b']]] = [["<unk>".toList, "<unk>".toList, ['a']], [['b']]] ∧
    total ["<unk>".toList] (unked [[['a'], ['b'], ['a']], [['b']]]) = 2 := by
  constructor <;> decide +kernel

theorem leText_total : ∀ a b : Str, (leText a b || leText b a) = true := by
  intro a
  induction a with
  | nil => intro b; simp [leText]
  | cons x a ih =>
    intro b
    cases b with
    | nil => simp [leText]
    | cons y b =>
      rw [leText, leText]
      by_cases h1 : x < y
      · rw [if_pos h1]; simp
      · rw [if_neg h1]
        by_cases h2 : x = y
        · subst h2
          rw [if_pos rfl, if_neg h1, if_pos rfl]; exact ih b
        · rw [if_neg h2]
          have h3 : y < x := by
            have h1' : ¬ x.val < y.val := h1
            have h2' : ¬ x.val = y.val := fun e => h2 (Char.ext e)
            exact UInt32.lt_of_le_of_ne (UInt32.not_lt.1 h1') (fun e => h2' e.symm)
          rw [if_pos h3]; simp

theorem leText_trans : ∀ a b c : Str, leText a b = true → leText b c = true → leText a c = true := by
  intro a
  induction a with
  | nil => intro b c _ _; simp [leText]
  | cons x a ih =>
    intro b c h1 h2
    cases b with
    | nil => simp [leText] at h1
    | cons y b =>
      cases c with
      | nil => simp [leText] at h2
      | cons z c =>
        rw [leText] at h1 h2 ⊢
        have hlt : ∀ {p q : Char}, p < q ↔ p.val < q.val := Iff.rfl
        by_cases e1 : x < y
        · rw [if_pos]
          by_cases e2 : y < z
          · exact hlt.2 (UInt32.lt_trans (hlt.1 e1) (hlt.1 e2))
          · rw [if_neg e2] at h2
            by_cases e3 : y = z
            · rw [← e3]; exact e1
            · rw [if_neg e3] at h2; cases h2
        · rw [if_neg e1] at h1
          by_cases e4 : x = y
          · subst e4
            rw [if_pos rfl] at h1
            by_cases e2 : x < z
            · rw [if_pos e2]
            · rw [if_neg e2] at h2 ⊢
              by_cases e3 : x = z
              · rw [if_pos e3] at h2 ⊢; exact ih b c h1 h2
              · rw [if_neg e3] at h2; cases h2
          · rw [if_neg e4] at h1; cases h1

/-- Any text can be sorted. -/
theorem exists_sort (l : List Str) : ∃ out, IsSort out l :=
  ⟨l.mergeSort leText, List.mergeSort_perm l leText, List.pairwise_mergeSort leText_trans leText_total l⟩

/-- The script has an output for every corpus and every size of the fragments. -/
theorem exists_output (n k : Nat) (lines : List Str) : ∃ out, IsOutputMr n k lines out := by
  have : ∀ frags : List (List Str), ∃ outs, Outputs n frags outs := by
    intro frags
    induction frags with
    | nil => exact ⟨[], trivial⟩
    | cons f frags ih =>
      obtain ⟨outs, h⟩ := ih
      exact ⟨_ :: outs, ⟨_, List.Perm.refl _, rfl⟩, h⟩
  obtain ⟨outs, h⟩ := this (split k lines.length lines)
  obtain ⟨sorted, hs⟩ := exists_sort ((countsFile 1 outs).map addLen)
  exact ⟨_, outs, h, sorted, hs, rfl⟩

/-- Two fragments of one line. -/
example : split 1 2 [['a'], ['b']] = [[['a']], [['b']]] := rfl

end Thot.NgramScripts
