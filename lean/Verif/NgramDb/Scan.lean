import Verif.NgramDb.Props
namespace Thot.NgramDb
open AMap LevelDb

theorem range_word : ∀ (s e v : Phrase), bumpLast s = some e → v.length = s.length + 1 →
    ((¬ v < s ++ [0] ∧ v < e ++ [0]) ↔ ∃ t, v = s ++ [t])
  | [], e, v, he, _ => by simp [bumpLast] at he
  | [w], e, [], _, hl => by simp at hl
  | [w], e, [a], _, hl => by simp at hl
  | [w], e, _ :: _ :: _ :: _, _, hl => by simp at hl
  | [w], e, [a, b], he, _ => by
    simp only [bumpLast, Option.some.injEq] at he
    subst he
    simp only [List.cons_append, List.nil_append, List.cons_lt_cons_iff, List.cons.injEq, and_true]
    have hn : ¬ (([] : List Nat) < []) := by simp
    constructor
    · rintro ⟨h1, h2⟩
      have h3 : ¬ a < w := fun hc => h1 (.inl hc)
      have h4 : a < w + 1 := by
        rcases h2 with h2 | ⟨_, h2 | ⟨_, h2⟩⟩
        · exact h2
        · omega
        · exact absurd h2 hn
      exact ⟨b, by clear h1 h2; omega, rfl⟩
    · rintro ⟨t, rfl, rfl⟩
      refine ⟨?_, .inl (by omega)⟩
      rintro (h | ⟨_, h | ⟨_, h⟩⟩)
      · omega
      · omega
      · exact hn h
  | w :: w' :: s, e, [], _, hl => by simp at hl
  | w :: w' :: s, e, a :: v, he, hl => by
    simp only [bumpLast, Option.map_eq_some_iff] at he
    obtain ⟨e', he', rfl⟩ := he
    have ih := range_word (w' :: s) e' v he' (by simpa using hl)
    constructor
    · rintro ⟨h1, h2⟩
      rw [List.cons_append, List.cons_lt_cons_iff] at h1 h2
      rcases h2 with h2 | ⟨rfl, h2⟩
      · exact absurd (.inl h2) h1
      · obtain ⟨t, ht⟩ := ih.1 ⟨fun hc => h1 (.inr ⟨rfl, hc⟩), h2⟩
        exact ⟨t, by rw [ht]; rfl⟩
    · rintro ⟨t, ht⟩
      rw [List.cons_append, List.cons.injEq] at ht
      obtain ⟨rfl, ht⟩ := ht
      obtain ⟨h1, h2⟩ := ih.2 ⟨t, ht⟩
      have hl' : ∀ x y : Phrase, (a :: x < a :: y ++ [0] ↔ a < a ∨ a = a ∧ x < y ++ [0]) := by
        intro x y; rw [List.cons_append, List.cons_lt_cons_iff]
      rw [hl', hl']
      refine ⟨?_, .inr ⟨rfl, h2⟩⟩
      rintro (h | ⟨_, h⟩)
      · omega
      · exact h1 h

theorem bumpLast_length : ∀ (s e : Phrase), bumpLast s = some e → e.length = s.length
  | [], e, h => by simp [bumpLast] at h
  | [w], e, h => by simp [bumpLast] at h; subst h; rfl
  | w :: w' :: s, e, h => by
    simp only [bumpLast, Option.map_eq_some_iff] at h
    obtain ⟨e', he', rfl⟩ := h
    simpa using bumpLast_length (w' :: s) e' he'

/-- The last word of `s` has a successor that the keys can represent. -/
def NotLast (s : Phrase) : Prop := ∀ w, s.getLast? = some w → w + 1 < 254 ^ 3

theorem bumpLast_fits : ∀ (s : Phrase), s ≠ [] → Fits 3 s → NotLast s → ∃ e, bumpLast s = some e ∧ Fits 3 e
  | [], h, _, _ => absurd rfl h
  | [w], _, _, hn => by
    have := hn w rfl
    refine ⟨_, rfl, ?_⟩
    intro x hx
    simp only [List.mem_singleton] at hx
    subst hx
    exact ⟨this, by omega⟩
  | w :: w' :: s, _, hf, hn => by
    rw [fits_cons] at hf
    obtain ⟨e, he, hfe⟩ := bumpLast_fits (w' :: s) (by simp) hf.2 (by intro x hx; exact hn x (by simpa using hx))
    exact ⟨w :: e, by simp [bumpLast, he], fits_cons.2 ⟨hf.1, hfe⟩⟩

theorem fits_snoc0 {s : Phrase} (h : Fits 3 s) : Fits 3 (s ++ [0]) := by
  rw [fits_append]
  exact ⟨h, by intro w hw; simp at hw; omega⟩

theorem inRange_iff {s e v : Phrase} (x : Rat) (hs : Ok s) (he : bumpLast s = some e) (hfe : Fits 3 e) (hv : Ok v) :
    inRange (ngramToString (s ++ [0])) (ngramToString (e ++ [0])) (ngramToString v, x) = true ↔ ∃ t, v = s ++ [t] := by
  have hl := bumpLast_length s e he
  have h1 := hs.2
  have h2 := hv.2
  have hm1 : ((s ++ [0]).length + 1) % 256 = s.length + 2 := by simp; omega
  have hm2 : ((e ++ [0]).length + 1) % 256 = s.length + 2 := by simp; omega
  have hm3 : (v.length + 1) % 256 = v.length + 1 := by omega
  simp only [inRange, Bool.and_eq_true, Bool.not_eq_true', decide_eq_false_iff_not, decide_eq_true_eq, ngramToString,
    List.cons_lt_cons_iff, hm1, hm2, hm3, C28_order 3 (by omega) v _ hv.1 (fits_snoc0 hs.1),
    C28_order 3 (by omega) v _ hv.1 (fits_snoc0 hfe)]
  constructor
  · rintro ⟨h3, h4⟩
    have h5 : ¬ (v.length + 1 < s.length + 2) := fun hc => h3 (.inl hc)
    have h6 : v.length = s.length + 1 := by
      rcases h4 with h4 | h4 <;> omega
    rcases h4 with h4 | h4
    · omega
    · exact (range_word s e v he h6).1 ⟨fun hc => h3 (.inr ⟨by omega, hc⟩), h4.2⟩
  · rintro ⟨t, rfl⟩
    have hl2 : (s ++ [t]).length = s.length + 1 := by simp
    obtain ⟨h3, h4⟩ := (range_word s e (s ++ [t]) he hl2).2 ⟨t, rfl⟩
    refine ⟨?_, .inr ⟨by omega, h4⟩⟩
    rintro (h | h)
    · omega
    · exact h3 h.2

theorem inRange_null {s e : Phrase} (x : Rat) (hs : Ok s) (he : bumpLast s = some e) :
    inRange (ngramToString (s ++ [0])) (ngramToString (e ++ [0])) (nullKey, x) = false := by
  have hl := bumpLast_length s e he
  have h1 := hs.2
  have hm2 : ((e ++ [0]).length + 1) % 256 = s.length + 2 := by simp; omega
  have : ¬ (nullKey < ngramToString (e ++ [0])) := by
    simp only [nullKey, ngramToString, List.cons_lt_cons_iff, hm2]
    omega
  simp [inRange, this]

theorem scanKey_at (n : Nat) (sc : Rat) (s : Phrase) (t : Nat) (x : Rat) (h : Fits 3 (s ++ [t])) (hn : n = s.length)
    (h0 : s ≠ []) : scanKey n sc (ngramToString (s ++ [t]), x) =
      some (if rabs x < eps then none else some (t, (sc, x))) := by
  have hp : 0 < s.length := List.length_pos_iff.2 h0
  have hc : n + 1 = (s ++ [t]).length ∧ (s ++ [t]).length > 1 := by simp; omega
  simp only [scanKey, (C28_ngram _ h).1]
  rw [if_pos hc]
  simp

/-- **C182.** For a non-empty history whose last word is not the last representable one, the words listed are
exactly those with a non-negligible count after the history, each once, with the count of the history and of the n-gram;
the call succeeds iff there is one. For the empty history the call is undefined. -/
theorem C182_entries {rnd : Rat → Rat} (hr : Fmt rnd) (os : List Op) (ho : ∀ o ∈ os, OpOk o) (s : Phrase)
    (hs : Ok s) (h0 : s ≠ []) (hn : NotLast s) :
    ∃ es b, getEntriesForSource (run rnd os) s = some (es, b) ∧ (es.map Prod.fst).Nodup ∧
      (∀ t cs cst, (t, (cs, cst)) ∈ es ↔
        cs = val (spec rnd os) s ∧ spec rnd os (s ++ [t]) = some cst ∧ ¬ rabs cst < eps) ∧
      (b = true ↔ es ≠ []) := by
  have hi := inv_run hr os ho
  generalize run rnd os = tb at hi ⊢
  generalize spec rnd os = f at hi ⊢
  obtain ⟨e, he, hfe⟩ := bumpLast_fits s h0 hs.1 hn
  have hc : cSrc tb s = val f s := by simp [cSrc, getInfo_spec hi s hs.1]
  have hk : ∀ x ∈ tb.db.filter (inRange (ngramToString (s ++ [0])) (ngramToString (e ++ [0]))),
      ∃ t, Ok (s ++ [t]) ∧ x.1 = ngramToString (s ++ [t]) := by
    intro x hx
    rw [List.mem_filter] at hx
    rcases hi.keys x hx.1 with h | ⟨v, _, hv, hkv⟩
    · have h2 := hx.2
      rw [show x = (nullKey, x.2) from by rw [← h], inRange_null x.2 hs he] at h2
      cases h2
    · have h2 := hx.2
      rw [show x = (ngramToString v, x.2) from by rw [← hkv], inRange_iff x.2 hs he hfe hv] at h2
      obtain ⟨t, rfl⟩ := h2
      exact ⟨t, hv, hkv⟩
  have hm := mapOpt_some (scanKey s.length (cSrc tb s))
    (fun x : Bytes × Rat => (scanKey s.length (cSrc tb s) x).getD none)
    (tb.db.filter (inRange (ngramToString (s ++ [0])) (ngramToString (e ++ [0])))) (by
      intro x hx
      obtain ⟨t, hv, hkv⟩ := hk x hx
      rw [show x = (ngramToString (s ++ [t]), x.2) from by rw [← hkv], scanKey_at _ _ s t x.2 hv.1 rfl h0]
      simp)
  have hmem : ∀ t cs cst, (t, (cs, cst)) ∈ ((tb.db.filter (inRange (ngramToString (s ++ [0])) (ngramToString (e ++ [0])))).map
      (fun x : Bytes × Rat => (scanKey s.length (cSrc tb s) x).getD none)).filterMap id ↔
      cs = val f s ∧ f (s ++ [t]) = some cst ∧ ¬ rabs cst < eps := by
    intro t cs cst
    simp only [List.mem_filterMap, List.mem_map, id_eq, exists_eq_right]
    constructor
    · rintro ⟨x, hx, h⟩
      obtain ⟨t', hv, hkv⟩ := hk x hx
      rw [show x = (ngramToString (s ++ [t']), x.2) from by rw [← hkv], scanKey_at _ _ s t' x.2 hv.1 rfl h0,
        Option.getD_some] at h
      split at h
      · cases h
      · next hne =>
        simp only [Option.some.injEq, Prod.mk.injEq] at h
        obtain ⟨rfl, rfl, rfl⟩ := h
        refine ⟨hc, ?_, hne⟩
        rw [← hi.look (s ++ [t']) (by simp) hv.1, lk_some_iff hi.distinct, ← hkv]
        exact (List.mem_filter.1 hx).1
    · rintro ⟨rfl, h1, h2⟩
      have hv := hi.dom (s ++ [t]) (by simp [h1])
      refine ⟨(ngramToString (s ++ [t]), cst), ?_, ?_⟩
      · rw [List.mem_filter]
        refine ⟨?_, (inRange_iff cst hs he hfe hv).2 ⟨t, rfl⟩⟩
        rw [← lk_some_iff hi.distinct, hi.look (s ++ [t]) (by simp) hv.1, h1]
      · rw [scanKey_at _ _ s t cst hv.1 rfl h0, if_neg h2, hc]
        rfl
  refine ⟨_, _, by rw [getEntriesForSource, he]; simp only []; rw [hm]; rfl, ?_, hmem, ?_⟩
  · have : ∀ (l : Db), Distinct l → (∀ x ∈ l, ∃ t, Ok (s ++ [t]) ∧ x.1 = ngramToString (s ++ [t])) →
        (((l.map (fun x : Bytes × Rat => (scanKey s.length (cSrc tb s) x).getD none)).filterMap id).map Prod.fst).Nodup := by
      intro l
      induction l with
      | nil => intro _ _; simp
      | cons x l ih =>
        intro hd hl
        have ih' := ih (List.nodup_cons.1 hd).2 (fun y hy => hl y (List.mem_cons_of_mem _ hy))
        obtain ⟨t, hv, hkv⟩ := hl x (List.mem_cons_self ..)
        have hx : (scanKey s.length (cSrc tb s) x).getD none =
            if rabs x.2 < eps then none else some (t, (cSrc tb s, x.2)) := by
          rw [show x = (ngramToString (s ++ [t]), x.2) from by rw [← hkv], scanKey_at _ _ s t x.2 hv.1 rfl h0]
          rfl
        rw [List.map_cons]
        by_cases hz : rabs x.2 < eps
        · rw [if_pos hz] at hx
          rw [List.filterMap_cons_none (by simpa using hx)]
          exact ih'
        · rw [if_neg hz] at hx
          rw [List.filterMap_cons_some (b := (t, (cSrc tb s, x.2))) (by simpa using hx), List.map_cons, List.nodup_cons]
          refine ⟨?_, ih'⟩
          intro hc'
          simp only [List.mem_map, List.mem_filterMap, id_eq, exists_eq_right] at hc'
          obtain ⟨p, ⟨y, hy, hyp⟩, hpt⟩ := hc'
          obtain ⟨t', hv', hkv'⟩ := hl y (List.mem_cons_of_mem _ hy)
          rw [show y = (ngramToString (s ++ [t']), y.2) from by rw [← hkv'], scanKey_at _ _ s t' y.2 hv'.1 rfl h0,
            Option.getD_some] at hyp
          split at hyp
          · cases hyp
          · simp only [Option.some.injEq] at hyp
            subst hyp
            simp only at hpt
            subst hpt
            refine (List.nodup_cons.1 hd).1 ?_
            rw [hkv, ← hkv']
            exact List.mem_map_of_mem hy
    exact this _ ((List.filter_sublist.map Prod.fst).nodup hi.distinct) hk
  · rw [decide_eq_true_iff]
    exact List.length_pos_iff

theorem C182_empty (tb : Tbl) : getEntriesForSource tb [] = none := rfl

/-- The words after history `5`; the hypotheses hold. -/
example : getEntriesForSource (run id [.add [] 5 10 4, .add [5] 6 4 2, .incr [5] 7 1, .add [5, 6] 7 2 1, .add [8] 6 2 2]) [5] =
    some ([(6, (4, 2)), (7, (4, 1))], true) ∧ Ok [5] ∧ NotLast [5] :=
  ⟨by decide +kernel, ⟨by intro w hw; simp at hw; omega, by simp⟩, by intro w hw; simp at hw; omega⟩

/-! ### C183: counts of words over all histories -/

/-- The count of `v` when it is a longer n-gram that ends with `t`. -/
def endVal (f : Counts) (t : Nat) (v : Phrase) : Rat :=
  if v.length > 1 ∧ v.getLast? = some t then val f v else 0

theorem foldl_end (t : Nat) (l : List (Phrase × Rat)) : ∀ a : Rat,
    l.foldl (fun acc x => if endsWith t x then acc + x.2 else acc) a =
      a + Sum.sumBy (fun x : Phrase × Rat => if x.1.length > 1 ∧ x.1.getLast? = some t then x.2 else 0) l := by
  induction l with
  | nil => intro a; simp [Sum.sumBy, Rat.add_zero]
  | cons x l ih =>
    intro a
    rw [List.foldl_cons, ih, Sum.sumBy_cons]
    by_cases h : x.1.length > 1 ∧ x.1.getLast? = some t
    · have h' : endsWith t x = true := by simp [endsWith, h.1, h.2]
      rw [if_pos h', if_pos h, Rat.add_assoc]
    · have h' : ¬ endsWith t x = true := by
        simp only [endsWith, Bool.and_eq_true, decide_eq_true_eq, beq_iff_eq]
        exact h
      rw [if_neg h', if_neg h, Rat.zero_add]

/-- **C183 (count of a word).** The count of a word is the sum, over any enumeration `vs` without repetition of the
n-grams with a count, of the counts of those of two or more words that end with it. -/
theorem C183_count {rnd : Rat → Rat} (hr : Fmt rnd) (os : List Op) (ho : ∀ o ∈ os, OpOk o) (t : Nat) (vs : List Phrase)
    (hnd : vs.Nodup) (hvs : ∀ v, v ∈ vs ↔ v ≠ [] ∧ known (spec rnd os) v = true) :
    cTrg (run rnd os) t = some (Sum.sumBy (endVal (spec rnd os) t) vs) := by
  obtain ⟨l, h1, h2, h3, _⟩ := C185_iterate hr os ho
  simp only [cTrg, h1, Option.map_some, foldl_end, Rat.zero_add, Option.some.injEq]
  have hp : (l.map Prod.fst).Perm vs := by
    refine (List.perm_ext_iff_of_nodup h2 hnd).2 ?_
    intro v
    rw [hvs v, List.mem_map]
    constructor
    · rintro ⟨⟨v', x⟩, hx, rfl⟩
      obtain ⟨hv0, hfx⟩ := (h3 v' x).1 hx
      exact ⟨hv0, by simp [known, hfx]⟩
    · rintro ⟨hv0, hk⟩
      obtain ⟨x, hx⟩ := Option.isSome_iff_exists.1 hk
      exact ⟨(v, x), (h3 v x).2 ⟨hv0, hx⟩, rfl⟩
  have e1 : Sum.sumBy (fun x : Phrase × Rat => if x.1.length > 1 ∧ x.1.getLast? = some t then x.2 else 0) l =
      Sum.sumBy (endVal (spec rnd os) t) (l.map Prod.fst) := by
    rw [Sum.sumBy_map]
    refine Sum.sumBy_congr ?_
    rintro ⟨v, x⟩ hx
    obtain ⟨_, hfx⟩ := (h3 v x).1 hx
    simp [endVal, val, hfx]
  rw [e1]
  exact Sum.sumBy_perm _ hp

/-- **C183 (histories of a word).** The entries listed for a word are the histories of the n-grams of two or more words
that end with it, each once, with the counts of the history and of the n-gram. -/
theorem C183_histories {rnd : Rat → Rat} (hr : Fmt rnd) (os : List Op) (ho : ∀ o ∈ os, OpOk o) (t : Nat) :
    ∃ es b, getEntriesForTarget (run rnd os) t = some (es, b) ∧ (es.map Prod.fst).Nodup ∧
      (∀ s cs cst, (s, (cs, cst)) ∈ es ↔ s ≠ [] ∧ cs = val (spec rnd os) s ∧ spec rnd os (s ++ [t]) = some cst) ∧
      (b = true ↔ es ≠ []) := by
  have hi := inv_run hr os ho
  obtain ⟨l, h1, h2, h3, _⟩ := C185_iterate hr os ho
  have hend : ∀ x : Phrase × Rat, endsWith t x = true ↔ ∃ s, s ≠ [] ∧ x.1 = s ++ [t] := by
    intro x
    simp only [endsWith, Bool.and_eq_true, decide_eq_true_eq, beq_iff_eq]
    constructor
    · rintro ⟨ha, hb⟩
      refine ⟨x.1.dropLast, ?_, ?_⟩
      rotate_left
      · obtain ⟨ys, hys⟩ := List.getLast?_eq_some_iff.1 hb
        rw [hys, List.dropLast_concat]
      intro hc
      have := congrArg List.length hc
      simp at this; omega
    · rintro ⟨s, hs0, hx⟩
      have : 0 < s.length := List.length_pos_iff.2 hs0
      rw [hx]
      refine ⟨by simp; omega, by simp⟩
  have hdom : ∀ s, spec rnd os (s ++ [t]) ≠ none → cSrc (run rnd os) s = val (spec rnd os) s := by
    intro s hs
    have := ok_init (hi.dom _ hs)
    simp [cSrc, getInfo_spec hi s this.1]
  refine ⟨_, _, by rw [getEntriesForTarget, h1]; rfl, ?_, ?_, ?_⟩
  · rw [List.map_map]
    have hd : (l.filter (endsWith t)).Pairwise (fun a b => a.1 ≠ b.1) := by
      rw [List.nodup_iff_pairwise_ne, List.pairwise_map] at h2
      exact h2.sublist List.filter_sublist
    rw [List.nodup_iff_pairwise_ne, List.pairwise_map]
    refine List.Pairwise.imp_of_mem (fun {a b} ha hb hab => ?_) hd
    obtain ⟨s, _, hs⟩ := (hend a).1 (List.mem_filter.1 ha).2
    obtain ⟨s', _, hs'⟩ := (hend b).1 (List.mem_filter.1 hb).2
    simp only [Function.comp, hs, hs', List.dropLast_concat]
    intro hc
    exact hab (by rw [hs, hs', hc])
  · intro s cs cst
    simp only [List.mem_map, List.mem_filter, Prod.mk.injEq]
    constructor
    · rintro ⟨⟨v, x⟩, ⟨hx, he⟩, ha, hb, hc⟩
      obtain ⟨s', hs0, hs'⟩ := (hend _).1 he
      simp only at hs' ha hb hc
      subst hs'
      rw [List.dropLast_concat] at ha hb
      subst ha; subst hc
      have hf := ((h3 _ _).1 hx).2
      exact ⟨hs0, by rw [← hb, hdom _ (by simp [hf])], hf⟩
    · rintro ⟨hs0, rfl, hf⟩
      refine ⟨(s ++ [t], cst), ⟨(h3 _ _).2 ⟨by simp, hf⟩, (hend _).2 ⟨s, hs0, rfl⟩⟩, ?_, ?_, rfl⟩
      · simp
      · simp [hdom s (by simp [hf])]
  · simp only [decide_eq_true_iff]
    exact List.length_pos_iff

/-- **C183 (partial): probability of a history given its last word.** When the n-gram and the word have positive counts,
the probability is their ratio. -/
theorem C183_prob_partial {rnd : Rat → Rat} (hr : Fmt rnd) (os : List Op) (ho : ∀ o ∈ os, OpOk o) (s : Phrase) (t : Nat)
    (h : Ok (s ++ [t])) (hp : 0 < val (spec rnd os) (s ++ [t])) (c : Rat) (hc : cTrg (run rnd os) t = some c) (hc0 : 0 < c) :
    pSrcGivenTrg (run rnd os) s t = some (val (spec rnd os) (s ++ [t]) / c) := by
  have e := (C181_counts_partial hr os ho s t h).2.1
  simp only [pSrcGivenTrg, e, hc, Option.map_some]
  rw [if_pos hp, if_pos hc0]

/-- The intended property: probabilities of histories are between 0 and 1 when counts are not negative. -/
def C183_full : Prop := ∀ (os : List Op), (∀ o ∈ os, OpOk o) → (∀ v, 0 ≤ val (spec id os) v) → ∀ (s : Phrase) (t : Nat) (p : Rat),
  pSrcGivenTrg (run id os) s t = some p → 0 ≤ p ∧ p ≤ 1

/-- False: for an unseen n-gram the "probability" is -99999; and for the empty history it may exceed 1, because the
count of a word leaves its unigram out. -/
theorem C183_counterexample : ¬ C183_full ∧
    pSrcGivenTrg (run id [.addSrcTrg [] 5 7, .addSrcTrg [6] 5 2]) [] 5 = some (7 / 2) := by
  refine ⟨?_, by decide +kernel⟩
  intro h
  have := h [] (by simp) (by intro v; simp only [spec, List.foldl_nil, val, newCounts]; split <;> simp) [] 5 smallLgNum
    (by decide +kernel)
  exact absurd this.1 (by decide +kernel)

example : cTrg (run id [.add [] 5 10 4, .add [6] 5 4 2, .incr [7, 6] 5 1]) 5 = some 3 ∧
    getEntriesForTarget (run id [.add [] 5 10 4, .add [6] 5 4 2, .incr [7, 6] 5 1]) 5 =
      some ([([6], (4, 2)), ([7, 6], (0, 1))], true) := by decide +kernel

end Thot.NgramDb
