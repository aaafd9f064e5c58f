import Verif.Search.Constr

/-!
Property C83: while translating, every incomplete hypothesis can be extended, so that a complete translation always
exists; false when a constraint uses the reserved word `UNKNOWN_WORD`.
-/
namespace Thot.Search
open Thot.StrProc (Str)
open Thot.Meta (MD Segm Meet words cutBefore)

/-- The pruning parameter keeps at least one translation: `W ≥ 1` (the integer part is at least one), or `W < 1` (its
logarithm is not positive). -/
def WOk : Prune → Prop
  | .best n => 1 ≤ n
  | .thr x => x ≤ 0

/-- No constraint uses the word reserved for unknown words. -/
def UnkFree (md : MD) : Prop := ∀ e ∈ md.srcPhrTransMap, unkWord ∉ e.2

theorem insertAll_length (sc : List Str → Int) : ∀ (os : List (List Str)) (t : List (Int × List Str)),
    (insertAll sc os t).length = os.length + t.length
  | [], t => by simp [insertAll]
  | o :: os, t => by
    rw [insertAll, insertAll_length sc os, MMap.length_ins]; simp; omega

theorem prune_ne {W : Prune} (hW : WOk W) {t : List (Int × List Str)} (h : t ≠ []) : prune W t ≠ [] := by
  cases t with
  | nil => exact absurd rfl h
  | cons b t =>
    cases W with
    | best n =>
      simp only [WOk] at hW
      simp only [prune]
      cases n with
      | zero => omega
      | succ n => simp
    | thr x =>
      simp only [WOk] at hW
      simp only [prune]
      rw [List.takeWhile_cons_of_pos (by simp; omega)]
      simp

theorem nbestTrans_ne {M : Model} (hW : WOk M.W) {ph : List Str} (h : M.opts ph ≠ []) : nbestTrans M ph ≠ [] := by
  unfold nbestTrans
  rw [if_neg (by simpa using h)]
  refine prune_ne hW ?_
  intro he
  have := congrArg List.length he
  rw [insertAll_length] at this
  simp at this
  exact h this

theorem words_getElem? (tw : List Str) (a b i : Nat) : (words tw a b)[i]? = if i < b - a then tw[a + i]? else none := by
  simp only [words, List.getElem?_take, List.getElem?_drop]

/-- The text honours the constraints, provided they do not use `UNKNOWN_WORD`. -/
theorem text_honours {I : Input} (hU : UnkFree I.md) {d : HypData} (hk : Kept I.md d) :
    ConstraintsHonoured I.md d (d.ntarget.tail.mapIdx fun i w => replaceUnk I.src d i w) := by
  intro e he k s hs hm
  obtain ⟨e1, e2⟩ := hk k s hs e he hm
  refine ⟨e1, ?_⟩
  rw [← e2]
  apply List.ext_getElem?
  intro i
  rw [words_getElem?, words_getElem?]
  split
  · rename_i hi
    rw [List.getElem?_mapIdx]
    cases hx : d.ntarget.tail[cutBefore d.cuts k + i]? with
    | none => rfl
    | some x =>
      simp only [Option.map_some, Option.some.injEq, replaceUnk]
      rw [if_neg]
      rintro rfl
      refine hU e he ?_
      rw [← e2]
      refine List.mem_iff_getElem?.2 ⟨i, ?_⟩
      rw [words_getElem?, if_pos hi, hx]
  · rfl

theorem keepExt_true {n : Nat} {I : Input} (hI : FromRaw I) (hU : UnkFree I.md) {d : HypData} (hw : WfHyp n d)
    (hk : Kept I.md d) : keepExt I d = some true := by
  unfold keepExt
  rw [textTs_eq hI hw hk]
  dsimp only
  obtain ⟨b, hb, hb'⟩ := Meta.C79_satisfies I.md _ _ _ (alignment_of_wf hw
    (d.ntarget.tail.mapIdx fun i w => replaceUnk I.src d i w) (by simp))
  rw [hb, hb'.2 (honours_of_kept hI (text_honours hU hk))]

/-- For every incomplete hypothesis there is a segment tried by `expand` that has some translation. -/
theorem segment_exists {M : Model} {I : Input} (hI : FromRaw I) (hA : 1 ≤ M.A) (hW : WOk M.W) {d : HypData}
    (hw : WfHyp I.src.length d) (hk : Kept I.md d) (hc : isComplete I.src.length d = false) :
    ∃ s ∈ segmsToTry M (Meta.srcPhrAffectedByConstraint I.md) (extractGaps I.src.length (covered d)),
      transForGap M I s.1 s.2 ≠ [] := by
  obtain ⟨f1, f2⟩ := fromRaw_facts hI
  -- an uncovered position, hence a gap
  have hex : ∃ j, 1 ≤ j ∧ j ≤ I.src.length ∧ covered d j = false := by
    refine Classical.byContradiction fun hno => ?_
    have : isComplete I.src.length d = true := (isComplete_iff hw).2 fun j h1 h2 => by
      cases hcj : covered d j with
      | true => rfl
      | false => exact absurd ⟨j, h1, h2, hcj⟩ hno
    rw [this] at hc; cases hc
  obtain ⟨j, hj1, hj2, hj3⟩ := hex
  obtain ⟨g, hg, _, _⟩ := C80_cover _ _ j hj1 hj2 hj3
  have hgap := (C80_gaps _ _ _).1 hg
  have g1 := hgap.first; have g2 := hgap.order; have g3 := hgap.last
  by_cases haff : Meta.srcPhrAffectedByConstraint I.md (g.1, g.1) = true
  · obtain ⟨e, he, x, x1, x2, x3, x4⟩ := (affected_iff hI (g.1, g.1) (Nat.le_refl _)).1 haff
    dsimp only at x1 x2
    have hx : x = g.1 := by omega
    subst hx
    obtain ⟨k1, k2, k3, k4, k5⟩ := f1 e he
    -- the constrained phrase is wholly uncovered
    have hfree : ∀ i, e.1.1 ≤ i → i ≤ e.1.2 → covered d i = false := by
      intro i hi1 hi2
      rw [covered_false_iff]
      intro s hs hs1
      rcases Nat.lt_or_ge s.2 i with h | h
      · exact h
      · exfalso
        obtain ⟨k, hkk⟩ := List.mem_iff_getElem?.1 hs
        obtain ⟨es, _⟩ := hk k s hkk e he ⟨i, hs1, h, hi1, hi2⟩
        have := hgap.free g.1 (Nat.le_refl _) g2
        rw [covered_false_iff] at this
        have := this s hs (by rw [es]; exact x3)
        rw [es] at this; omega
    have hl : e.1.1 = g.1 := by
      rcases Nat.lt_or_ge e.1.1 g.1 with h | h
      · rcases hgap.left with h' | h'
        · omega
        · have := hfree (g.1 - 1) (by omega) (by omega)
          rw [h'] at this; cases this
      · omega
    have hr : e.1.2 ≤ g.2 := by
      rcases Nat.lt_or_ge g.2 e.1.2 with h | h
      · rcases hgap.right with h' | h'
        · omega
        · have := hfree (g.2 + 1) (by omega) (by omega)
          rw [h'] at this; cases this
      · exact h
    refine ⟨e.1, (mem_segmsToTry _ _ _ _).2 ⟨g, hg, by omega, k2, hr, by omega, fun y hy hy' => Or.inr ?_⟩, ?_⟩
    · exact (affected_iff hI (e.1.1, y) hy).2 ⟨e, he, e.1.1, Nat.le_refl _, hy, Nat.le_refl _, k2⟩
    · unfold transForGap
      rw [if_pos ((affected_iff hI _ k2).2 ⟨e, he, e.1.1, Nat.le_refl _, k2, Nat.le_refl _, k2⟩)]
      dsimp only
      rw [k5, if_pos (List.length_pos_iff.2 k4)]
      simp
  · refine ⟨(g.1, g.1), (mem_segmsToTry _ _ _ _).2 ⟨g, hg, Nat.le_refl _, Nat.le_refl _, g2, by simp, fun y hy hy' => ?_⟩, ?_⟩
    · left; dsimp only at hy hy' ⊢; omega
    · unfold transForGap
      rw [if_neg haff]
      have hget : srcPhrase I.src g.1 g.1 = [I.src.getD (g.1 - 1) []] := by
        have hlt : g.1 - 1 < I.src.length := by omega
        simp only [srcPhrase]
        rw [List.drop_eq_getElem_cons hlt, show g.1 + 1 - g.1 = 1 by omega]
        rw [List.getD_eq_getElem?_getD, List.getElem?_eq_getElem hlt]
        rfl
      by_cases hu : (unseenWords M I.src).contains (I.src.getD (g.1 - 1) []) = true
      · rw [if_pos ⟨rfl, hu⟩]; simp
      · rw [if_neg (fun h => hu h.2)]
        dsimp only
        rw [hget]
        refine nbestTrans_ne hW ?_
        intro hno
        refine hu ?_
        simp only [unseenWords, List.contains_iff_mem, List.mem_filter]
        refine ⟨?_, by rw [hno]; rfl⟩
        have hlt : g.1 - 1 < I.src.length := by omega
        rw [List.getD_eq_getElem?_getD, List.getElem?_eq_getElem hlt]
        exact List.getElem_mem hlt

/-- A translation can always go on: every incomplete hypothesis has an extension (`A ≥ 1`, at least one translation
survives pruning, constraints do not use `UNKNOWN_WORD`). -/
theorem C83_progress_partial {M : Model} {I : Input} (hI : FromRaw I) (hA : 1 ≤ M.A) (hW : WOk M.W) (hU : UnkFree I.md)
    {h : Hyp} (hr : Reach .trans M I h) (hc : isComplete I.src.length h.data = false) :
    ∃ hs, expandMode .trans M I h = some hs ∧ hs ≠ [] := by
  have hw := C81_wf hr
  have hk := reach_kept hI hr
  obtain ⟨hs, he⟩ := C82_expand_safe hI hr
  obtain ⟨s, hs1, hs2⟩ := segment_exists hI hA hW hw hk hc
  obtain ⟨t, ht⟩ := List.exists_mem_of_ne_nil _ hs2
  refine ⟨hs, he, List.ne_nil_of_mem (a := incrScore M h (extend h.data s.1 s.2 t.2)) ?_⟩
  rw [expandMode_mem _ _ _ _ _ he]
  obtain ⟨g, hg, a1, a2, a3, a4, a5⟩ := (mem_segmsToTry _ _ _ _).1 hs1
  have hgap := (C80_gaps _ _ _).1 hg
  have b1 := hgap.first; have b2 := hgap.last
  refine ⟨s, hs1, ⟨List.mem_map.2 ⟨t, ht, rfl⟩, ?_⟩, rfl⟩
  exact keepExt_true hI hU
    (wf_extend hw (by omega) a2 (by omega) fun j hj hj' => hgap.free j (by omega) (by omega))
    (kept_extend hI hw hk a2 ht)

/-- An extension covers more words. -/
theorem uncovered_step {m : Mode} {M : Model} {I : Input} {h h' : Hyp} {hs : List Hyp} (hr : Reach m M I h)
    (he : expandMode m M I h = some hs) (hm : h' ∈ hs) :
    uncovered I.src.length h'.data < uncovered I.src.length h.data := by
  obtain ⟨l, r, trg, hd, _, h1, h2, h3, hu, _⟩ := step_spec he hm
  have hw := C81_no_underflow (C81_wf (.step hr he hm))
  rw [hd] at hw ⊢
  simp only [uncovered, extend, List.map_append, List.sum_append, List.map_cons, List.map_nil, List.sum_cons,
    List.sum_nil] at hw ⊢
  omega

/-- Hence every sentence has a complete translation, reached by extending any hypothesis. -/
theorem C83_exists_partial {M : Model} {I : Input} (hI : FromRaw I) (hA : 1 ≤ M.A) (hW : WOk M.W) (hU : UnkFree I.md) :
    ∃ h, Reach .trans M I h ∧ isComplete I.src.length h.data = true := by
  have key : ∀ (n : Nat) (h : Hyp), Reach .trans M I h → uncovered I.src.length h.data = n →
      ∃ h', Reach .trans M I h' ∧ isComplete I.src.length h'.data = true := by
    intro n
    induction n using Nat.strongRecOn with
    | _ n ih =>
      intro h hr hn
      cases hc : isComplete I.src.length h.data with
      | true => exact ⟨h, hr, hc⟩
      | false =>
        obtain ⟨hs, he, hne⟩ := C83_progress_partial hI hA hW hU hr hc
        obtain ⟨h', hm⟩ := List.exists_mem_of_ne_nil _ hne
        exact ih _ (by rw [← hn]; exact uncovered_step hr he hm) h' (.step hr he hm) rfl
  exact key _ _ .null rfl

/-- The claim without the restriction on the words of the constraints. -/
def C83_full : Prop := ∀ (M : Model) (I : Input), FromRaw I → 1 ≤ M.A → WOk M.W →
  ∃ h, Reach .trans M I h ∧ isComplete I.src.length h.data = true

def exUInput : Input where
  src := ["b".toList]
  md := ⟨["b".toList], [((1, 1), [unkWord])]⟩

/-- It is false: when a constraint asks for the translation `UNKNOWN_WORD`, the word is replaced by the source word when
the text is produced, the text violates the constraint, and no translation is found. -/
theorem C83_counterexample : ¬ C83_full := by
  intro h
  obtain ⟨h, hr, hc⟩ := h exModel exUInput
    ⟨"<phr_pair_annot> <src_segm> b </src_segm> <trg_segm> UNKNOWN_WORD </trg_segm> </phr_pair_annot>".toList,
      by decide +kernel, rfl⟩ (by decide) (by simp [WOk, exModel])
  have key : ∀ h, Reach .trans exModel exUInput h → h = ⟨0, nullData⟩ := by
    intro h hr
    induction hr with
    | null => rfl
    | step _ he hm ih =>
      subst ih
      have : expandMode .trans exModel exUInput ⟨0, nullData⟩ = some [] := by decide +kernel
      rw [this] at he; cases he; cases hm
  rw [key h hr] at hc
  revert hc; decide +kernel

-- The hypotheses are met by a sentence with a constraint.
example : FromRaw exCInput ∧ 1 ≤ exModel.A ∧ WOk exModel.W ∧ UnkFree exCInput.md :=
  ⟨exC_raw, by decide, by simp [WOk, exModel], by intro e he; simp [exCInput] at he; subst he; decide +kernel⟩

end Thot.Search
