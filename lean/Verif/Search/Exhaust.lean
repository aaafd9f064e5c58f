import Verif.Search.Progress
import Verif.Search.RefProps

/-!
Property C91: while translating, the extensions of a hypothesis are all those allowed by the limits on phrase length and
reordering, the translation options (pruned with `W`) and the constraints, and no other.
-/
namespace Thot.Search
open Thot.StrProc (Str)
open Thot.Meta (MD Segm Meet words cutBefore)

/-! ### Specification -/

/-- A translation option is surely kept: at most `n` options score as much as it (itself included), or none exceeds it by
more than the threshold. -/
def SurelyKept (W : Prune) (os : List (List Str)) (sc : List Str → Int) (t : List Str) : Prop :=
  match W with
  | .best n => (os.filter fun o => decide (sc t ≤ sc o)).length ≤ n
  | .thr x => ∀ o ∈ os, sc o + x ≤ sc t

/-- A translation option may be kept: fewer than `n` options are better, or none exceeds it by more than the threshold. -/
def MayBeKept (W : Prune) (os : List (List Str)) (sc : List Str → Int) (t : List Str) : Prop :=
  match W with
  | .best n => (os.filter fun o => decide (sc t < sc o)).length < n
  | .thr x => ∀ o ∈ os, sc o + x ≤ sc t

/-- `t` is a translation of the source segment `(l, r)`: the one required by a constraint on exactly that segment, or, for
segments without constrained words, an option `kept` of the model, or the unknown word for a single word without options. -/
def Translates (kept : Prune → List (List Str) → (List Str → Int) → List Str → Prop) (M : Model) (I : Input) (l r : Nat)
    (t : List Str) : Prop :=
  ((l, r), t) ∈ I.md.srcPhrTransMap ∨
  (∀ e ∈ I.md.srcPhrTransMap, ¬ Meet (l, r) e.1) ∧
    (t ∈ M.opts (words I.src (l - 1) r) ∧ kept M.W (M.opts (words I.src (l - 1) r)) (M.phrScore (words I.src (l - 1) r)) t ∨
      l = r ∧ M.opts (words I.src (l - 1) r) = [] ∧ t = [unkWord])

/-! ### Pruning -/

theorem desc_insertAll (sc : List Str → Int) : ∀ (os : List (List Str)) (t : List (Int × List Str)), MMap.Desc t →
    MMap.Desc (insertAll sc os t)
  | [], _, h => h
  | o :: os, t, h => by rw [insertAll]; exact desc_insertAll sc os _ (MMap.desc_ins h)

theorem perm_insertAll (sc : List Str → Int) : ∀ (os : List (List Str)) (t : List (Int × List Str)),
    (insertAll sc os t).Perm (os.map (fun o => (sc o, o)) ++ t)
  | [], t => .refl _
  | o :: os, t => by
    rw [insertAll]
    refine (perm_insertAll sc os _).trans ?_
    refine (List.Perm.append_left _ (MMap.perm_ins (sc o) o t)).trans ?_
    simp only [List.map_cons, List.cons_append]
    exact List.perm_middle

theorem count_insertAll (sc : List Str → Int) (os : List (List Str)) (p : Int → Bool) :
    ((insertAll sc os []).filter fun e => p e.1).length = (os.filter fun o => p (sc o)).length := by
  have h := ((perm_insertAll sc os []).filter (fun e => p e.1)).length_eq
  rw [h, List.append_nil, List.filter_map, List.length_map]
  rfl

theorem take_kept {n : Nat} {t : List (Int × List Str)} (hd : MMap.Desc t) {e : Int × List Str} (he : e ∈ t)
    (hn : (t.filter fun x => decide (e.1 ≤ x.1)).length ≤ n) : e ∈ t.take n := by
  induction t generalizing n with
  | nil => cases he
  | cons a t ih =>
    obtain ⟨h1, h2⟩ := List.pairwise_cons.1 hd
    have hle : e.1 ≤ a.1 := by
      rcases List.mem_cons.1 he with rfl | h
      · exact Int.le_refl _
      · exact h1 e h
    rw [List.filter_cons_of_pos (by simpa using hle), List.length_cons] at hn
    cases n with
    | zero => omega
    | succ n =>
      rw [List.take_succ_cons]
      rcases List.mem_cons.1 he with rfl | h
      · exact List.mem_cons_self
      · exact List.mem_cons_of_mem _ (ih h2 h (by omega))

theorem take_few {n : Nat} {t : List (Int × List Str)} (hd : MMap.Desc t) {e : Int × List Str} (he : e ∈ t.take n) :
    (t.filter fun x => decide (e.1 < x.1)).length < n := by
  induction t generalizing n with
  | nil => simp at he
  | cons a t ih =>
    obtain ⟨h1, h2⟩ := List.pairwise_cons.1 hd
    cases n with
    | zero => simp at he
    | succ n =>
      rw [List.take_succ_cons] at he
      rcases List.mem_cons.1 he with rfl | h
      · have : (t.filter fun x => decide (e.1 < x.1)) = [] := by
          rw [List.filter_eq_nil_iff]
          intro x hx
          have := h1 x hx
          simp; omega
        rw [List.filter_cons_of_neg (by simp), this]
        simp
      · have := ih h2 h
        by_cases hlt : e.1 < a.1
        · rw [List.filter_cons_of_pos (by simpa using hlt), List.length_cons]; omega
        · rw [List.filter_cons_of_neg (by simpa using hlt)]; omega

theorem takeWhile_kept {t : List (Int × List Str)} (hd : MMap.Desc t) (c : Int) (e : Int × List Str) :
    e ∈ t.takeWhile (fun x => decide (x.1 ≥ c)) ↔ e ∈ t ∧ c ≤ e.1 := by
  induction t with
  | nil => simp
  | cons a t ih =>
    obtain ⟨h1, h2⟩ := List.pairwise_cons.1 hd
    by_cases ha : a.1 ≥ c
    · rw [List.takeWhile_cons_of_pos (by simpa using ha)]
      simp only [List.mem_cons, ih h2]
      constructor
      · rintro (rfl | ⟨h, h'⟩)
        · exact ⟨Or.inl rfl, ha⟩
        · exact ⟨Or.inr h, h'⟩
      · rintro ⟨h | h, h'⟩
        · exact Or.inl h
        · exact Or.inr ⟨h, h'⟩
    · rw [List.takeWhile_cons_of_neg (by simpa using ha)]
      constructor
      · intro h; cases h
      · rintro ⟨h, h'⟩
        rcases List.mem_cons.1 h with rfl | h
        · omega
        · have := h1 e h; omega

theorem prune_thr {x : Int} (sc : List Str → Int) (os : List (List Str)) (t : List Str) (ht : t ∈ os) :
    (sc t, t) ∈ prune (.thr x) (insertAll sc os []) ↔ ∀ o ∈ os, sc o + x ≤ sc t := by
  have hd := desc_insertAll sc os [] List.Pairwise.nil
  have hm := insertAll_mem sc os []
  cases hl : insertAll sc os [] with
  | nil =>
    have := (hm (sc t, t)).2 (Or.inl ⟨ht, rfl⟩)
    rw [hl] at this; cases this
  | cons b u =>
    rw [hl] at hd
    simp only [prune]
    rw [takeWhile_kept hd]
    obtain ⟨h1, _⟩ := List.pairwise_cons.1 hd
    have hb : b.2 ∈ os ∧ b.1 = sc b.2 := by
      have := (hm b).1 (by rw [hl]; exact List.mem_cons_self)
      simpa using this
    have hmem : ∀ o ∈ os, (sc o, o) ∈ b :: u := fun o ho => by rw [← hl]; exact (hm _).2 (Or.inl ⟨ho, rfl⟩)
    constructor
    · rintro ⟨_, h⟩ o ho
      rcases List.mem_cons.1 (hmem o ho) with h' | h'
      · rw [← h'] at h; exact h
      · have := h1 _ h'; dsimp only at this h; omega
    · intro h
      refine ⟨hmem t ht, ?_⟩
      have := h b.2 hb.1
      dsimp only; omega

/-- Options surely kept are kept, and options kept are among the best. -/
theorem nbest_kept {M : Model} {ph t : List Str} (ht : t ∈ M.opts ph) (hk : SurelyKept M.W (M.opts ph) (M.phrScore ph) t) :
    (M.phrScore ph t, t) ∈ nbestTrans M ph := by
  unfold nbestTrans
  rw [if_neg (by rw [List.isEmpty_iff]; exact List.ne_nil_of_mem ht)]
  cases hW : M.W with
  | best n =>
    rw [hW] at hk
    refine take_kept (desc_insertAll _ _ _ List.Pairwise.nil) ((insertAll_mem _ _ _ _).2 (Or.inl ⟨ht, rfl⟩)) ?_
    rw [count_insertAll _ _ (fun s => decide (M.phrScore ph t ≤ s))]
    exact hk
  | thr x =>
    rw [hW] at hk
    exact (prune_thr _ _ _ ht).2 hk

theorem nbest_sound {M : Model} {ph : List Str} {e : Int × List Str} (he : e ∈ nbestTrans M ph) :
    e.2 ∈ M.opts ph ∧ MayBeKept M.W (M.opts ph) (M.phrScore ph) e.2 := by
  unfold nbestTrans at he
  split at he
  · cases he
  · have h1 := (insertAll_mem _ _ _ _).1 (prune_sub _ _ _ he)
    simp only [List.not_mem_nil, or_false] at h1
    refine ⟨h1.1, ?_⟩
    cases hW : M.W with
    | best n =>
      rw [hW] at he
      have := take_few (desc_insertAll _ _ _ List.Pairwise.nil) he
      rw [count_insertAll _ _ (fun s => decide (e.1 < s)), h1.2] at this
      exact this
    | thr x =>
      rw [hW] at he
      have h2 : e = (M.phrScore ph e.2, e.2) := Prod.ext h1.2 rfl
      rw [h2] at he
      exact (prune_thr _ _ _ h1.1).1 he

/-! ### Translations of a segment -/

theorem srcPhrase_words {src : List Str} {l r : Nat} (h1 : 1 ≤ l) : srcPhrase src l r = words src (l - 1) r := by
  unfold srcPhrase words
  congr 1
  omega

theorem single_word {src : List Str} {l : Nat} (h1 : 1 ≤ l) (h2 : l ≤ src.length) :
    words src (l - 1) l = [src.getD (l - 1) []] := by
  have hlt : l - 1 < src.length := by omega
  unfold words
  rw [List.drop_eq_getElem_cons hlt, show l - (l - 1) = 1 by omega]
  rw [List.getD_eq_getElem?_getD, List.getElem?_eq_getElem hlt]
  rfl

theorem unseen_iff {M : Model} {src : List Str} {l : Nat} (h1 : 1 ≤ l) (h2 : l ≤ src.length) :
    (unseenWords M src).contains (src.getD (l - 1) []) = true ↔ M.opts (words src (l - 1) l) = [] := by
  rw [single_word h1 h2]
  simp only [unseenWords, List.contains_iff_mem, List.mem_filter, List.isEmpty_iff]
  constructor
  · exact fun h => h.2
  · refine fun h => ⟨?_, h⟩
    have hlt : l - 1 < src.length := by omega
    rw [List.getD_eq_getElem?_getD, List.getElem?_eq_getElem hlt]
    exact List.getElem_mem hlt

theorem trans_complete {M : Model} {I : Input} (hI : FromRaw I) {l r : Nat} (h1 : 1 ≤ l) (hlr : l ≤ r)
    (hr : r ≤ I.src.length) {t : List Str} (ht : Translates SurelyKept M I l r t) : ∃ sc, (sc, t) ∈ transForGap M I l r := by
  obtain ⟨f1, f2⟩ := fromRaw_facts hI
  unfold transForGap
  rcases ht with ht | ⟨hno, ht⟩
  · obtain ⟨_, _, _, k4, k5⟩ := f1 _ ht
    dsimp only at k4 k5
    rw [if_pos ((affected_iff hI _ hlr).2 ⟨_, ht, l, Nat.le_refl _, hlr, Nat.le_refl _, hlr⟩)]
    dsimp only
    rw [k5, if_pos (List.length_pos_iff.2 k4)]
    exact ⟨0, by simp⟩
  · rw [if_neg (fun h => by
      obtain ⟨e, he, hm⟩ := (affected_iff hI (l, r) hlr).1 h
      exact hno e he hm)]
    rcases ht with ⟨ht, hk⟩ | ⟨rfl, ho, rfl⟩
    · have hne : ¬ (l = r ∧ (unseenWords M I.src).contains (I.src.getD (l - 1) []) = true) := by
        rintro ⟨rfl, h⟩
        rw [(unseen_iff h1 hr).1 h] at ht
        cases ht
      rw [if_neg hne, srcPhrase_words h1]
      exact ⟨_, nbest_kept ht hk⟩
    · rw [if_pos ⟨rfl, (unseen_iff h1 hr).2 ho⟩]
      exact ⟨0, by simp⟩

theorem trans_sound {M : Model} {I : Input} (hI : FromRaw I) {l r : Nat} (h1 : 1 ≤ l) (hlr : l ≤ r)
    (hr : r ≤ I.src.length) {t : Int × List Str} (ht : t ∈ transForGap M I l r) : Translates MayBeKept M I l r t.2 := by
  obtain ⟨f1, f2⟩ := fromRaw_facts hI
  by_cases haff : ∃ e ∈ I.md.srcPhrTransMap, Meet (l, r) e.1
  · obtain ⟨e, he, hm⟩ := haff
    obtain ⟨g1, g2⟩ := transForGap_affected hI hlr ht he hm
    left
    rw [g1, g2]
    exact he
  · right
    refine ⟨fun e he hm => haff ⟨e, he, hm⟩, ?_⟩
    unfold transForGap at ht
    rw [if_neg (fun h => haff ((affected_iff hI (l, r) hlr).1 h))] at ht
    split at ht
    · rename_i hu
      obtain ⟨rfl, hu⟩ := hu
      simp only [List.mem_singleton] at ht
      subst ht
      exact Or.inr ⟨rfl, (unseen_iff h1 hr).1 hu, rfl⟩
    · rw [srcPhrase_words h1] at ht
      exact Or.inl (nbest_sound ht)

/-! ### C91 -/

/-- Every allowed extension is generated: a segment of uncovered words at most `U` words after the beginning of its gap,
of at most `A` words or constrained, with any of its translations. -/
theorem C91_exhaustive {M : Model} {I : Input} (hI : FromRaw I) (hU : UnkFree I.md) {h : Hyp} (hr : Reach .trans M I h)
    {l r : Nat} {t : List Str} (h1 : 1 ≤ l) (hlr : l ≤ r) (hrn : r ≤ I.src.length)
    (hun : ∀ j, l ≤ j → j ≤ r → ∀ s ∈ h.data.srcSegm, ¬ (s.1 ≤ j ∧ j ≤ s.2))
    (hgap : ∀ f, 1 ≤ f → (∀ j, f ≤ j → j ≤ l → ∀ s ∈ h.data.srcSegm, ¬ (s.1 ≤ j ∧ j ≤ s.2)) → l - f ≤ M.U)
    (hlen : r + 1 - l ≤ M.A ∨ ((l, r), t) ∈ I.md.srcPhrTransMap) (ht : Translates SurelyKept M I l r t) :
    ∃ hs, expandMode .trans M I h = some hs ∧
      (⟨h.score + M.extScore h.data (extend h.data l r t), extend h.data l r t⟩ : Hyp) ∈ hs := by
  obtain ⟨hs, he⟩ := C82_expand_safe hI hr
  refine ⟨hs, he, ?_⟩
  have hw := C81_wf hr
  have hk := reach_kept hI hr
  have hcov : ∀ j, (∀ s ∈ h.data.srcSegm, ¬ (s.1 ≤ j ∧ j ≤ s.2)) ↔ covered h.data j = false := by
    intro j
    rw [covered_false_iff]
    exact ⟨fun h s hs h1 => by have := h s hs; omega, fun h s hs h1 => by have := h s hs h1.1; omega⟩
  simp only [hcov] at hun hgap
  rw [expandMode_mem _ _ _ _ _ he]
  obtain ⟨g, hg, g1, g2⟩ := C80_cover I.src.length _ l h1 (by omega) (hun l (Nat.le_refl _) hlr)
  have hmg := (C80_gaps _ _ _).1 hg
  have hgr : r ≤ g.2 := by
    rcases Nat.lt_or_ge g.2 r with hx | hx
    · rcases hmg.right with h' | h'
      · omega
      · rw [hun (g.2 + 1) (by omega) (by omega)] at h'; cases h'
    · exact hx
  obtain ⟨sc, hsc⟩ := trans_complete hI h1 hlr hrn ht
  refine ⟨(l, r), (mem_segmsToTry _ _ _ _).2 ⟨g, hg, g1, hlr, hgr, ?_, ?_⟩, ⟨List.mem_map.2 ⟨_, hsc, rfl⟩, ?_⟩, rfl⟩
  · exact hgap g.1 hmg.first fun j hj hj' => hmg.free j hj (by omega)
  · intro x hx hx'
    dsimp only at hx hx' ⊢
    rcases hlen with hlen | hc
    · left; omega
    · right
      exact (affected_iff hI (l, x) hx).2 ⟨_, hc, l, Nat.le_refl _, hx, Nat.le_refl _, hlr⟩
  · exact keepExt_true hI hU (wf_extend hw h1 hlr hrn hun) (kept_extend hI hw hk hlr hsc)

/-- Every extension generated translates its segment by one of its translations. -/
theorem C91_sound {M : Model} {I : Input} (hI : FromRaw I) {h h' : Hyp} {hs : List Hyp}
    (he : expandMode .trans M I h = some hs) (hm : h' ∈ hs) : ∃ l r t, h'.data = extend h.data l r t ∧ 1 ≤ l ∧ l ≤ r ∧
      r ≤ I.src.length ∧ Translates MayBeKept M I l r t := by
  obtain ⟨l, r, trg, hd, hg, h1, h2, h3, _⟩ := step_spec he hm
  obtain ⟨t, ht, hd'⟩ := List.mem_map.1 hg.1
  exact ⟨l, r, t.2, hd'.symm, h1, h2, h3, trans_sound hI h1 h2 h3 ht⟩

/-- A sentence with a constraint on a phrase longer than `A`, and a word with two options of which one is kept. -/
def exKInput : Input where
  src := ["a".toList, "b".toList, "c".toList]
  md := ⟨["a".toList, "b".toList, "c".toList], [((2, 3), ["k".toList])]⟩

def exKModel : Model where
  A := 1
  E := 1
  U := 5
  W := .best 1
  opts := fun s => if s = ["a".toList] then [["x".toList, "x".toList], ["x".toList]] else []
  phrScore := fun _ t => -(t.length : Int)
  extScore := fun _ d => -(d.ntarget.length : Int)
  heur := fun _ => 0

example : FromRaw exKInput ∧ UnkFree exKInput.md ∧ Translates SurelyKept exKModel exKInput 2 3 ["k".toList] ∧
    Translates SurelyKept exKModel exKInput 1 1 ["x".toList] ∧
    expandMode .trans exKModel exKInput ⟨0, nullData⟩ =
      some [⟨-2, extend nullData 1 1 ["x".toList]⟩, ⟨-2, extend nullData 2 3 ["k".toList]⟩] := by
  refine ⟨⟨"a <phr_pair_annot> <src_segm> b c </src_segm> <trg_segm> k </trg_segm> </phr_pair_annot>".toList,
    by decide +kernel, rfl⟩, by simp only [UnkFree]; decide +kernel, Or.inl (by decide), Or.inr ⟨?_, Or.inl ⟨by decide, ?_⟩⟩, by decide +kernel⟩
  · intro e he
    simp only [exKInput, List.mem_singleton] at he
    subst he
    rintro ⟨j, j1, j2, j3, j4⟩
    dsimp only at j2 j3
    omega
  · show List.length _ ≤ 1
    decide +kernel

end Thot.Search
