import Verif.LangModel.Lemmas
/-! Helper lemmas for the training of the language model, with the specification of the counts. -/
namespace Thot.LangModel

open Thot

/-! ### Specification: occurrences of a sequence of words -/

/-- Number of positions of `l` at which an occurrence of `g` ends. -/
def occ (g l : List Word) : Nat := (List.range l.length).countP (fun i => g.isSuffixOf (l.take (i + 1)))

/-- The sentence with the symbols for its begin and its end. -/
def framed (s : List Word) : List Word := bosStr :: (s ++ [eosStr])

/-! ### N-grams of a sentence -/

theorem histLoop_le (s : List Word) (i j : Nat) (b : Bool) (hi : i ≤ s.length) (hj : j ≤ i) :
    histLoop s i j b = (s.take i).drop (i - j) := by
  induction j with
  | zero => simp [histLoop]
  | succ j ih =>
    unfold histLoop
    rw [if_neg (by omega), ih (by omega)]
    have h1 : i - (j + 1) < (s.take i).length := by simp; omega
    rw [List.drop_eq_getElem_cons h1]
    have h2 : i - (j + 1) + 1 = i - j := by omega
    rw [h2]
    have h3 : i - (j + 1) < s.length := by omega
    rw [List.getElem?_eq_getElem h3]
    simp

theorem histLoop_true (s : List Word) (i j : Nat) (hi : i ≤ s.length) (hj : i ≤ j) :
    histLoop s i j true = s.take i := by
  induction j with
  | zero => have : i = 0 := by omega
            subst this; simp [histLoop]
  | succ j ih =>
    by_cases h : i ≤ j
    · unfold histLoop; rw [if_pos (by omega), if_pos rfl]; exact ih h
    · have : j + 1 = i := by omega
      rw [histLoop_le s i (j + 1) true hi (by omega), this]; simp

theorem histLoop_gt (s : List Word) (i j : Nat) (hi : i ≤ s.length) (hj : i < j) :
    histLoop s i j false = bosStr :: s.take i := by
  cases j with
  | zero => omega
  | succ j =>
    unfold histLoop
    rw [if_pos (by omega), if_neg (by simp), histLoop_true s i j hi (by omega)]

/-- The n-gram at a position: the word and the `n-1` words before it, the begin of sentence symbol included. -/
theorem ngramAt_eq (s : List Word) (k i : Nat) (w : Word) (hi : i ≤ s.length) :
    ngramAt s (k + 1) i w =
      if k ≤ i + 1 then [(w, (bosStr :: s.take i).drop (i + 1 - k))] else [] := by
  have hm : min i s.length = i := by omega
  unfold ngramAt
  rw [Nat.add_sub_cancel]
  by_cases h : k ≤ i
  · rw [histLoop_le s i k false hi h, if_pos (by simp; omega), if_pos (by omega)]
    have : i + 1 - k = (i - k) + 1 := by omega
    rw [this, List.drop_succ_cons]
  · rw [histLoop_gt s i k hi (by omega)]
    by_cases h2 : k = i + 1
    · subst h2; rw [if_pos (by simp; omega), if_pos (by omega)]; simp
    · rw [if_neg (by simp; omega), if_neg (by omega)]

theorem suffix_iff_drop (h l : List Word) : h.isSuffixOf l = true ↔ h.length ≤ l.length ∧ h = l.drop (l.length - h.length) := by
  rw [List.isSuffixOf_iff_suffix]
  constructor
  · rintro ⟨t, rfl⟩
    exact ⟨by simp, by simp⟩
  · rintro ⟨_, h2⟩
    rw [h2]; exact List.drop_suffix _ _

theorem suffix_concat (h l : List Word) (a b : Word) :
    (h ++ [a]).isSuffixOf (l ++ [b]) = true ↔ a = b ∧ h.isSuffixOf l = true := by
  rw [List.isSuffixOf_iff_suffix, List.isSuffixOf_iff_suffix, List.suffix_concat_iff]
  constructor
  · rintro (h1 | ⟨t, h1, h2⟩)
    · simp at h1
    · have := List.append_inj' h1 rfl
      obtain ⟨rfl, h3⟩ := this
      exact ⟨by simpa using h3, h2⟩
  · rintro ⟨rfl, h2⟩
    exact Or.inr ⟨h, rfl, h2⟩

/-- The word at a position of the framed sentence, and the words before it. -/
theorem count_ngramAt (s : List Word) (h : List Word) (w v : Word) (i : Nat) (hi : i ≤ s.length) :
    List.count (w, h) (ngramAt s (h.length + 1) i v) =
      if (h ++ [w]).isSuffixOf (bosStr :: s.take i ++ [v]) then 1 else 0 := by
  rw [ngramAt_eq s _ i v hi]
  have hl : (bosStr :: s.take i).length = i + 1 := by simp; omega
  by_cases hc : (h ++ [w]).isSuffixOf (bosStr :: s.take i ++ [v]) = true
  · rw [if_pos hc]
    obtain ⟨h1, h2⟩ := (suffix_concat _ _ _ _).1 hc
    obtain ⟨h3, h4⟩ := (suffix_iff_drop _ _).1 h2
    rw [hl] at h3 h4
    rw [if_pos h3, ← h4, h1]
    simp
  · rw [if_neg hc]
    split
    · rename_i h3
      rw [List.count_eq_zero]
      intro hm
      simp only [List.mem_singleton, Prod.mk.injEq] at hm
      apply hc
      rw [suffix_concat]
      refine ⟨hm.1, (suffix_iff_drop _ _).2 ⟨by omega, ?_⟩⟩
      rw [hl]; exact hm.2
    · rfl

theorem count_ngramsOf_ne (s : List Word) (h : List Word) (w : Word) (n : Nat) (hn : n ≠ h.length + 1) :
    List.count (w, h) (ngramsOf s n) = 0 := by
  rw [List.count_eq_zero]
  intro hm
  have key : ∀ i v, (w, h) ∈ ngramAt s n i v → h.length + 1 = n := by
    intro i v hx
    unfold ngramAt at hx
    split at hx
    · simp only [List.mem_singleton, Prod.mk.injEq] at hx
      rw [hx.2]; assumption
    · cases hx
  unfold ngramsOf at hm
  rcases List.mem_append.1 hm with h1 | h1
  · obtain ⟨i, _, h2⟩ := List.mem_flatMap.1 h1
    exact hn (key _ _ h2).symm
  · exact hn (key _ _ h1).symm

theorem countP_eq_sum {A : Type} (p : A → Bool) (l : List A) :
    l.countP p = (l.map (fun a => if p a then 1 else 0)).sum := by
  induction l with
  | nil => rfl
  | cons a l ih => rw [List.countP_cons, ih, List.map_cons, List.sum_cons]; omega

theorem count_ngramsOf (s : List Word) (h : List Word) (w : Word) :
    List.count (w, h) (ngramsOf s (h.length + 1)) +
      (if h = [] ∧ w = bosStr then 1 else 0) = occ (h ++ [w]) (framed s) := by
  have hlen : (framed s).length = (s.length + 1) + 1 := by simp [framed]
  have e0 : (h ++ [w]).isSuffixOf ((framed s).take (0 + 1)) = decide (h = [] ∧ w = bosStr) := by
    have : (framed s).take (0 + 1) = [] ++ [bosStr] := by simp [framed]
    rw [this, Bool.eq_iff_iff, suffix_concat]
    simp [List.isSuffixOf_iff_suffix]
    exact And.comm
  have e1 : ∀ i, i < s.length → (framed s).take (i + 1 + 1) = bosStr :: s.take i ++ [s.getD i []] := by
    intro i hi
    simp only [framed, List.take_succ_cons, List.cons_append]
    rw [List.take_append_of_le_length (by omega), List.take_add_one, List.getD_eq_getElem?_getD,
      List.getElem?_eq_getElem hi]
    rfl
  have e2 : (framed s).take (s.length + 1 + 1) = bosStr :: s.take s.length ++ [eosStr] := by
    rw [List.take_of_length_le (by omega)]; simp [framed]
  unfold occ
  rw [hlen, List.range_succ_eq_map, List.countP_cons, List.countP_map, List.range_succ, List.countP_append, e0]
  unfold ngramsOf
  rw [List.count_append, List.count_flatMap, count_ngramAt s h w eosStr _ (Nat.le_refl _), countP_eq_sum]
  have e3 : (List.range s.length).map (List.count (w, h) ∘ fun i => ngramAt s (h.length + 1) i (s.getD i [])) =
      (List.range s.length).map (fun a =>
        if ((fun i => (h ++ [w]).isSuffixOf (List.take (i + 1) (framed s))) ∘ Nat.succ) a = true then 1 else 0) := by
    refine List.map_congr_left ?_
    intro i hi
    have hi := List.mem_range.1 hi
    simp only [Function.comp]
    rw [count_ngramAt s h w _ i (by omega), ← e1 i hi]
  rw [e3]
  have e4 : List.countP ((fun i => (h ++ [w]).isSuffixOf (List.take (i + 1) (framed s))) ∘ Nat.succ) [s.length] =
      if (h ++ [w]).isSuffixOf (bosStr :: s.take s.length ++ [eosStr]) = true then 1 else 0 := by
    simp only [List.countP_cons, List.countP_nil, Function.comp]
    rw [← e2, Nat.zero_add]
  rw [e4]
  simp only [decide_eq_true_eq]

theorem sum_single (f : Nat → Nat) (k : Nat) (n : Nat) (hf : ∀ i, i ≠ k → f i = 0) :
    ((List.range' 1 n).map f).sum = if 1 ≤ k ∧ k ≤ n then f k else 0 := by
  induction n with
  | zero => simp; omega
  | succ n ih =>
    rw [List.range'_1_concat, List.map_append, List.sum_append, ih]
    simp only [List.map_cons, List.map_nil, List.sum_cons, List.sum_nil]
    by_cases h : k = 1 + n
    · subst h; rw [if_neg (by omega), if_pos (by omega)]; omega
    · rw [hf (1 + n) (fun hh => h hh.symm)]
      split <;> split <;> omega

/-- How often an n-gram is accumulated. -/
theorem count_events (order : Nat) (ho : 0 < order) (s : List Word) (h : List Word) (w : Word) :
    List.count (w, h) (events order s) = if h.length < order then occ (h ++ [w]) (framed s) else 0 := by
  unfold events
  rw [List.count_cons, List.count_flatMap]
  have := sum_single (List.count (w, h) ∘ ngramsOf s) (h.length + 1) order
    (fun i hi => count_ngramsOf_ne s h w i hi)
  rw [this]
  have hb : ((bosStr, ([] : List Word)) == (w, h)) = decide (h = [] ∧ w = bosStr) := by
    rw [Bool.eq_iff_iff]
    simp only [beq_iff_eq, Prod.mk.injEq, decide_eq_true_eq]
    constructor
    · rintro ⟨rfl, rfl⟩; exact ⟨rfl, rfl⟩
    · rintro ⟨rfl, rfl⟩; exact ⟨rfl, rfl⟩
  rw [hb]
  simp only [decide_eq_true_eq]
  by_cases h1 : h.length < order
  · rw [if_pos (by omega), if_pos h1]; exact count_ngramsOf s h w
  · rw [if_neg (by omega), if_neg h1, if_neg]
    rintro ⟨rfl, _⟩
    simp at h1; omega

/-! ### Accumulation -/

theorem distinct_accum {cm : List (Ngram × Rat)} (h : AMap.Distinct cm) (g : Ngram) : AMap.Distinct (accum cm g) := by
  unfold accum
  split <;> exact AMap.distinct_put h _ _

theorem lk_accum (cm : List (Ngram × Rat)) (g k : Ngram) :
    AMap.lk (accum cm g) k = if k = g then some ((AMap.lk cm g).getD 0 + 1) else AMap.lk cm k := by
  unfold accum
  cases h : AMap.lk cm g with
  | none => simp only [AMap.lk_put, Option.getD_none]; rw [Rat.zero_add]
  | some x => simp only [AMap.lk_put]; simp

theorem accum_spec (es : List Ngram) (cm : List (Ngram × Rat)) (h : AMap.Distinct cm) :
    AMap.Distinct (es.foldl accum cm) ∧
      ∀ k, AMap.lk (es.foldl accum cm) k =
        if es.count k = 0 then AMap.lk cm k else some ((AMap.lk cm k).getD 0 + (es.count k : Rat)) := by
  induction es generalizing cm with
  | nil => exact ⟨h, by simp⟩
  | cons g es ih =>
    obtain ⟨h1, h2⟩ := ih (accum cm g) (distinct_accum h g)
    refine ⟨h1, ?_⟩
    intro k
    rw [List.foldl_cons, h2, lk_accum, List.count_cons]
    by_cases hk : k = g
    · subst hk
      simp only [if_true, beq_self_eq_true]
      rw [if_neg (c := List.count k es + 1 = 0) (by omega)]
      split
      · rename_i h3; rw [h3]; simp
      · simp only [Option.getD_some]; congr 1
        rw [Rat.natCast_add]; grind
    · have : (g == k) = false := by simp; exact fun hh => hk hh.symm
      simp [hk, this]

theorem perm_orderIns (e : Ngram × Rat) (l : List (Ngram × Rat)) : (orderIns e l).Perm (e :: l) := by
  induction l with
  | nil => exact List.Perm.refl _
  | cons x r ih =>
    unfold orderIns
    split
    · exact List.Perm.refl _
    · exact (ih.cons x).trans (List.Perm.swap e x r)

theorem perm_inOrder (l : List (Ngram × Rat)) : (inOrder l).Perm l := by
  unfold inOrder
  induction l with
  | nil => exact List.Perm.refl _
  | cons x r ih => rw [List.foldr_cons]; exact (perm_orderIns _ _).trans (ih.cons x)

/-- The entries of the map of counts of a sentence, in the order of iteration. -/
theorem lk_collect (order : Nat) (ho : 0 < order) (s : List Word) :
    AMap.Distinct (inOrder (collect order s)) ∧ ∀ w h, AMap.lk (inOrder (collect order s)) (w, h) =
      if h.length < order ∧ occ (h ++ [w]) (framed s) ≠ 0 then some (occ (h ++ [w]) (framed s) : Rat) else none := by
  obtain ⟨h1, h2⟩ := accum_spec (events order s) [] AMap.distinct_nil
  have hp := perm_inOrder (collect order s)
  have hd : AMap.Distinct (inOrder (collect order s)) := ((hp.map Prod.fst).nodup_iff).2 h1
  refine ⟨hd, ?_⟩
  intro w h
  rw [AMap.lk_eq_of_perm hp hd]
  unfold collect
  rw [h2, count_events order ho]
  by_cases a : h.length < order
  · simp only [a, if_true, true_and]
    by_cases b : occ (h ++ [w]) (framed s) = 0
    · simp [b, AMap.lk]
    · simp [b, AMap.lk, Rat.zero_add]
  · simp [a, AMap.lk]

/-! ### Training of a sentence -/

theorem ok_update {m : LM} (h : Ok m) (c lb : Rat) (e : Ngram × Rat) : Ok (m.update c lb e) := by
  unfold LM.update
  split
  · exact ok_incrStr h _ _ _
  · exact h

theorem order_incrStr (m : LM) (w : Word) (hs : List Word) (c : Rat) : (m.incrStr w hs c).order = m.order := by
  unfold LM.incrStr; dsimp only; rw [foldl_addSymbol]; rfl

theorem ok_updates {m : LM} (h : Ok m) (c lb : Rat) (es : List (Ngram × Rat)) : Ok (es.foldl (LM.update c lb) m) := by
  induction es generalizing m with
  | nil => exact h
  | cons e es ih => exact ih (ok_update h c lb e)

theorem order_updates (m : LM) (c lb : Rat) (es : List (Ngram × Rat)) : (es.foldl (LM.update c lb) m).order = m.order := by
  induction es generalizing m with
  | nil => rfl
  | cons e es ih =>
    rw [List.foldl_cons, ih]
    unfold LM.update
    split
    · exact order_incrStr _ _ _ _
    · rfl

/-- What `updateNgramInfo` makes of a count. -/
def upd (c lb x k : Rat) : Rat := if x + c * k > lb then x + c * k else x

theorem cNgramStr_update {m : LM} (h : Ok m) (c lb : Rat) (e : Ngram × Rat) (w : Word) (hs : List Word) :
    (m.update c lb e).cNgramStr w hs =
      if (w, hs) = e.1 then upd c lb (m.cNgramStr w hs) e.2 else m.cNgramStr w hs := by
  obtain ⟨⟨w', hs'⟩, x⟩ := e
  unfold LM.update upd
  dsimp only
  by_cases he : (w, hs) = (w', hs')
  · obtain ⟨rfl, rfl⟩ := Prod.mk.injEq _ _ _ _ ▸ he
    rw [if_pos rfl]
    split
    · rw [cNgramStr_incrStr h]; simp
    · rfl
  · rw [if_neg he]
    split
    · rw [cNgramStr_incrStr h, if_neg]
      · grind
      · rintro ⟨rfl, rfl⟩; exact he rfl
    · rfl

theorem cNgramStr_updates {m : LM} (h : Ok m) (c lb : Rat) (es : List (Ngram × Rat)) (hd : AMap.Distinct es)
    (w : Word) (hs : List Word) :
    (es.foldl (LM.update c lb) m).cNgramStr w hs =
      match AMap.lk es (w, hs) with
      | none => m.cNgramStr w hs
      | some k => upd c lb (m.cNgramStr w hs) k := by
  induction es generalizing m with
  | nil => rfl
  | cons e es ih =>
    obtain ⟨h1, h2⟩ := List.nodup_cons.1 hd
    rw [List.foldl_cons, ih (ok_update h c lb e) h2, cNgramStr_update h, AMap.lk]
    by_cases he : (w, hs) = e.1
    · have hn : AMap.lk es (w, hs) = none := by rw [AMap.lk_none_iff, he]; exact h1
      rw [hn]
      simp [he]
    · have he' : ¬ e.1 = (w, hs) := fun hh => he hh.symm
      rw [if_neg he]; simp [he']

/-- The counts after training one sentence. -/
theorem cNgramStr_train {m : LM} (h : Ok m) (ho : 0 < m.order) (s : List Word) (c lb : Rat) (w : Word) (hs : List Word) :
    (m.train s c lb).2.cNgramStr w hs =
      if hs.length < m.order ∧ occ (hs ++ [w]) (framed s) ≠ 0 then
        upd c lb (m.cNgramStr w hs) (occ (hs ++ [w]) (framed s) : Rat)
      else m.cNgramStr w hs := by
  obtain ⟨h1, h2⟩ := lk_collect m.order ho s
  unfold LM.train
  rw [if_neg (by omega)]
  dsimp only
  rw [cNgramStr_updates h _ _ _ h1, h2]
  by_cases hc : hs.length < m.order ∧ occ (hs ++ [w]) (framed s) ≠ 0
  · rw [if_pos hc, if_pos hc]
  · rw [if_neg hc, if_neg hc]

end Thot.LangModel
