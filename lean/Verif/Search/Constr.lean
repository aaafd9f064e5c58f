import Verif.Search.Wf
import Verif.Meta.Props

/-!
Property C82: translation constraints are honoured by every hypothesis of a translation, and producing its text never
reads outside the vectors.
-/
namespace Thot.Search
open Thot.StrProc (Str)
open Thot.Meta (MD Segm Meet words cutBefore)

/-- The input comes from a sentence with annotations. -/
def FromRaw (I : Input) : Prop := ∃ raw, Meta.obtainTransConstraints raw = some I.md ∧ I.src = Meta.getSrcSentVec I.md

/-- Every segment sharing a word with a constraint is exactly the constrained phrase and is translated by the given
words. -/
def Kept (md : MD) (d : HypData) : Prop :=
  ∀ (k : Nat) (s : Segm), d.srcSegm[k]? = some s → ∀ e ∈ md.srcPhrTransMap, Meet s e.1 →
    s = e.1 ∧ words d.ntarget.tail (cutBefore d.cuts k) (d.cuts.getD k 0) = e.2

theorem cut_le {n : Nat} {d : HypData} (hw : WfHyp n d) {k : Nat} (hk : k < d.cuts.length) :
    d.cuts.getD k 0 ≤ d.ntarget.length - 1 := by
  have hlast := hw.last
  rcases List.eq_nil_or_concat d.cuts with hc | ⟨c', c, hc⟩
  · rw [hc] at hk; simp at hk
  · rw [List.concat_eq_append] at hc
    have hs := hw.sorted
    rw [hc] at hlast hs hk ⊢
    simp only [List.getLast?_concat, Option.getD_some] at hlast
    rw [List.getD_eq_getElem?_getD, List.getElem?_eq_getElem hk, Option.getD_some]
    have : (c' ++ [c])[k] ≤ c := by
      rcases Nat.lt_or_ge k c'.length with h | h
      · rw [List.getElem_append_left h]
        exact (List.pairwise_append.1 hs).2.2 _ (List.getElem_mem h) c (by simp)
      · rw [List.getElem_append_right h]; simp
    omega

theorem ntarget_cons {n : Nat} {d : HypData} (hw : WfHyp n d) : d.ntarget = nullWord :: d.ntarget.tail := by
  have := hw.head
  cases hn : d.ntarget with
  | nil => rw [hn] at this; cases this
  | cons a t => rw [hn] at this; simp at this; simp [this]

theorem alignment_of_wf {n : Nat} {d : HypData} (hw : WfHyp n d) (tw : List Str) (ht : tw.length = d.ntarget.length - 1) :
    Meta.Alignment d.srcSegm d.cuts tw where
  len := hw.len.symm
  mono := hw.sorted
  bound := by
    intro c hc
    obtain ⟨k, hk, rfl⟩ := List.getElem_of_mem hc
    have := cut_le hw hk
    rw [List.getD_eq_getElem?_getD, List.getElem?_eq_getElem hk, Option.getD_some] at this
    omega
  disj := by
    intro i j hi hj hne ⟨x, h1, h2, h3, h4⟩
    have hp := List.pairwise_iff_getElem.1 hw.disjoint
    rcases Nat.lt_or_gt_of_ne hne with h | h
    · have := hp i j hi hj h; omega
    · have := hp j i hj hi h; omega

theorem words_append (a b : List Str) (x y : Nat) (h : y ≤ a.length) : words (a ++ b) x y = words a x y := by
  simp only [words, List.drop_append, List.take_append, List.length_drop]
  rcases Nat.lt_or_ge a.length x with h' | h'
  · have e : y - x = 0 := by omega
    simp [e]
  · rw [show y - x - (a.length - x) = 0 by omega]; simp

theorem getD_append_last (c : List Nat) (x : Nat) : (c ++ [x]).getD c.length 0 = x := by simp

theorem cutBefore_append (c : List Nat) (x : Nat) (k : Nat) (hk : k ≤ c.length) : cutBefore (c ++ [x]) k = cutBefore c k := by
  unfold cutBefore
  split
  · rfl
  · rw [List.getD_eq_getElem?_getD, List.getD_eq_getElem?_getD, List.getElem?_append_left (by omega)]

theorem cutBefore_length {n : Nat} {d : HypData} (hw : WfHyp n d) : cutBefore d.cuts d.cuts.length = d.ntarget.length - 1 := by
  have hlast := hw.last
  unfold cutBefore
  rcases List.eq_nil_or_concat d.cuts with hc | ⟨c', c, hc⟩
  · rw [hc] at hlast ⊢; simp at hlast; simp; omega
  · rw [List.concat_eq_append] at hc
    rw [hc] at hlast ⊢
    simp only [List.getLast?_concat, Option.getD_some] at hlast
    simp
    omega

/-- The words and the cut of the segments of an extension. -/
theorem extend_words {n : Nat} {d : HypData} (hw : WfHyp n d) (l r : Nat) (trg : List Str) {k : Nat}
    (hk : k < (extend d l r trg).srcSegm.length) :
    (k < d.srcSegm.length ∧ (extend d l r trg).srcSegm[k]? = d.srcSegm[k]? ∧
      words (extend d l r trg).ntarget.tail (cutBefore (extend d l r trg).cuts k) ((extend d l r trg).cuts.getD k 0) =
        words d.ntarget.tail (cutBefore d.cuts k) (d.cuts.getD k 0)) ∨
    (k = d.srcSegm.length ∧ (extend d l r trg).srcSegm[k]? = some (l, r) ∧
      words (extend d l r trg).ntarget.tail (cutBefore (extend d l r trg).cuts k) ((extend d l r trg).cuts.getD k 0) =
        trg) := by
  have hn := ntarget_cons hw
  have hlen := hw.len
  have hpos : 1 ≤ d.ntarget.length := by rw [hn]; simp
  have htl : (extend d l r trg).ntarget.tail = d.ntarget.tail ++ trg := by
    unfold extend; dsimp only; rw [hn]; simp
  rw [htl]
  rcases Nat.lt_or_ge k d.srcSegm.length with h | h
  · left
    refine ⟨h, by simp [extend, List.getElem?_append_left h], ?_⟩
    have hc : (extend d l r trg).cuts.getD k 0 = d.cuts.getD k 0 := by
      simp only [extend, List.getD_eq_getElem?_getD]; rw [List.getElem?_append_left (by omega)]
    have hcb : cutBefore (extend d l r trg).cuts k = cutBefore d.cuts k := cutBefore_append _ _ _ (by omega)
    rw [hc, hcb, words_append]
    have := cut_le hw (k := k) (by omega)
    simpa using this
  · right
    have hk' : k = d.srcSegm.length := by simp [extend] at hk; omega
    subst hk'
    refine ⟨rfl, by simp [extend], ?_⟩
    have hc : (extend d l r trg).cuts.getD d.srcSegm.length 0 = d.ntarget.length + trg.length - 1 := by
      simp [extend, ← hlen]
    have hcb : cutBefore (extend d l r trg).cuts d.srcSegm.length = d.ntarget.length - 1 := by
      rw [← hlen]
      show cutBefore (d.cuts ++ [_]) _ = _
      rw [cutBefore_append _ _ _ (Nat.le_refl _), cutBefore_length hw]
    rw [hc, hcb]
    have e : d.ntarget.tail.length = d.ntarget.length - 1 := by simp
    unfold words
    rw [← e, List.drop_left, e, show d.ntarget.length + trg.length - 1 - (d.ntarget.length - 1) = trg.length by omega]
    simp

theorem lk_mem {K V : Type} [DecidableEq K] (m : List (K × V)) (k : K) (v : V) (h : AMap.lk m k = some v) : (k, v) ∈ m := by
  induction m with
  | nil => simp [AMap.lk] at h
  | cons e m ih =>
    simp only [AMap.lk] at h
    split at h
    · rename_i he; cases h; subst he; simp
    · simp [ih h]

/-- Facts about the constraints of a sentence. -/
theorem fromRaw_facts {I : Input} (hI : FromRaw I) :
    (∀ e ∈ I.md.srcPhrTransMap, 1 ≤ e.1.1 ∧ e.1.1 ≤ e.1.2 ∧ e.1.2 ≤ I.src.length ∧ e.2 ≠ [] ∧
      Meta.getTransForSrcPhr I.md e.1 = e.2) ∧
    (∀ e ∈ I.md.srcPhrTransMap, ∀ e' ∈ I.md.srcPhrTransMap, Meet e.1 e'.1 → e.1 = e'.1) := by
  obtain ⟨raw, h1, h2⟩ := hI
  obtain ⟨ha, hb⟩ := Meta.C77_segments raw I.md h1
  refine ⟨fun e he => by rw [h2]; exact ha e he, fun e he e' he' ⟨x, x1, x2, x3, x4⟩ => ?_⟩
  obtain ⟨k, hk, hke⟩ := List.getElem_of_mem he
  obtain ⟨k', hk', hke'⟩ := List.getElem_of_mem he'
  have hp := List.pairwise_iff_getElem.1 hb
  rcases Nat.lt_trichotomy k k' with h | h | h
  · have := hp k k' (by simpa [Meta.getConstrainedSrcPhrases] using hk)
      (by simpa [Meta.getConstrainedSrcPhrases] using hk') h
    simp only [Meta.getConstrainedSrcPhrases, List.getElem_map, hke, hke'] at this
    omega
  · subst h; rw [← hke, ← hke']
  · have := hp k' k (by simpa [Meta.getConstrainedSrcPhrases] using hk')
      (by simpa [Meta.getConstrainedSrcPhrases] using hk) h
    simp only [Meta.getConstrainedSrcPhrases, List.getElem_map, hke, hke'] at this
    omega

theorem affected_iff {I : Input} (hI : FromRaw I) (p : Segm) (hp : p.1 ≤ p.2) :
    Meta.srcPhrAffectedByConstraint I.md p = true ↔ ∃ e ∈ I.md.srcPhrTransMap, Meet p e.1 := by
  obtain ⟨raw, h1, h2⟩ := hI
  rw [Meta.C79_affected raw I.md h1 p hp]
  simp [Meta.getConstrainedSrcPhrases]

/-- Translations of an affected segment. -/
theorem transForGap_affected {M : Model} {I : Input} (hI : FromRaw I) {l r : Nat} (hlr : l ≤ r) {t : Int × List Str}
    (ht : t ∈ transForGap M I l r) {e : Segm × List Str} (he : e ∈ I.md.srcPhrTransMap) (hm : Meet (l, r) e.1) :
    (l, r) = e.1 ∧ t.2 = e.2 := by
  have haff := (affected_iff hI (l, r) hlr).2 ⟨e, he, hm⟩
  unfold transForGap at ht
  rw [if_pos haff] at ht
  dsimp only at ht
  split at ht
  · rename_i hlen
    simp only [List.mem_singleton] at ht
    subst ht
    unfold Meta.getTransForSrcPhr at hlen ⊢
    split at hlen
    · rename_i v hv
      have hmem := lk_mem _ _ _ hv
      obtain ⟨f1, f2⟩ := fromRaw_facts hI
      have heq := f2 ((l, r), v) hmem e he hm
      refine ⟨heq, ?_⟩
      have g1 := (f1 e he).2.2.2.2
      rw [← heq] at g1
      simp only [Meta.getTransForSrcPhr, hv] at g1
      exact g1
    · simp at hlen
  · simp at ht

theorem kept_extend {n : Nat} {M : Model} {I : Input} (hI : FromRaw I) {d : HypData} (hw : WfHyp n d) (hk : Kept I.md d)
    {l r : Nat} (hlr : l ≤ r) {t : Int × List Str} (ht : t ∈ transForGap M I l r) : Kept I.md (extend d l r t.2) := by
  intro k s hs e he hm
  have hkl : k < (extend d l r t.2).srcSegm.length := (List.getElem?_eq_some_iff.1 hs).1
  rcases extend_words hw l r t.2 hkl with ⟨h1, h2, h3⟩ | ⟨h1, h2, h3⟩
  · rw [h3]; rw [h2] at hs; exact hk k s hs e he hm
  · rw [h3]; rw [h2] at hs; cases hs
    exact transForGap_affected hI hlr ht he hm

/-! ### The text -/

theorem alignedSegs_mem (ss : List Segm) (cs : List Nat) (hl : cs.length = ss.length) : ∀ (prev : Nat) (e : Segm × Nat × Nat),
    e ∈ alignedSegs prev ss cs ↔ ∃ k, ss[k]? = some e.1 ∧ cs[k]? = some e.2.2 ∧
      e.2.1 = if k = 0 then prev else cs.getD (k - 1) 0 := by
  induction ss generalizing cs with
  | nil => intro prev e; simp [alignedSegs]
  | cons s ss ih =>
    intro prev e
    cases cs with
    | nil => simp at hl
    | cons c cs =>
      simp only [alignedSegs, List.mem_cons, ih cs (by simpa using hl)]
      constructor
      · rintro (rfl | ⟨k, h1, h2, h3⟩)
        · exact ⟨0, by simp⟩
        · refine ⟨k + 1, by simpa using h1, by simpa using h2, ?_⟩
          rw [h3]
          cases k <;> simp
      · rintro ⟨k, h1, h2, h3⟩
        cases k with
        | zero => left; simp at h1 h2 h3; simp [Prod.ext_iff, h1, h2, h3]
        | succ k =>
          right
          refine ⟨k, by simpa using h1, by simpa using h2, ?_⟩
          rw [h3]; cases k <;> simp

theorem areAligned_iff {n : Nat} {d : HypData} (hw : WfHyp n d) (j i : Nat) : areAligned d j i = true ↔
    ∃ k s, d.srcSegm[k]? = some s ∧ s.1 ≤ j ∧ j ≤ s.2 ∧ cutBefore d.cuts k + 1 ≤ i ∧ i ≤ d.cuts.getD k 0 := by
  simp only [areAligned, List.any_eq_true, Bool.and_eq_true, decide_eq_true_eq, alignedSegs_mem _ _ hw.len]
  constructor
  · rintro ⟨e, ⟨k, h1, h2, h3⟩, ⟨⟨h4, h5⟩, h6⟩, h7⟩
    refine ⟨k, e.1, h1, h4, h5, ?_, ?_⟩
    · unfold cutBefore; rw [← h3]; exact h6
    · simp [List.getD_eq_getElem?_getD, h2, h7]
  · rintro ⟨k, s, h1, h2, h3, h4, h5⟩
    have hk := (List.getElem?_eq_some_iff.1 h1).1
    have hkc : k < d.cuts.length := by rw [hw.len]; exact hk
    refine ⟨(s, cutBefore d.cuts k, d.cuts.getD k 0), ⟨k, h1, ?_, rfl⟩, ⟨⟨h2, h3⟩, h4⟩, h5⟩
    rw [List.getD_eq_getElem?_getD, List.getElem?_eq_getElem hkc]; rfl

theorem replaceConstr_id (v : List Str) : ∀ (ws : List Str) (i : Nat), (v.drop i).take ws.length = ws →
    replaceConstr i v ws = some v
  | [], i, _ => by simp [replaceConstr]
  | w :: ws, i, h => by
    have hi : i < v.length := by
      rcases Nat.lt_or_ge i v.length with h' | h'
      · exact h'
      · rw [List.drop_eq_nil_of_le h'] at h; simp at h
    rw [List.drop_eq_getElem_cons hi, List.length_cons, List.take_succ_cons, List.cons.injEq] at h
    have hset : v.set i w = v := by
      rw [← h.1]; simp
    unfold replaceConstr
    rw [List.getElem?_eq_getElem hi]
    dsimp only
    rw [hset, ite_self]
    exact replaceConstr_id v ws (i + 1) h.2

/-- The first target word aligned with a source word is the first one of its segment. -/
theorem firstAligned_spec {n : Nat} {d : HypData} (hw : WfHyp n d) {j len i : Nat} (h : firstAligned d j len = some i) :
    ∃ k s, d.srcSegm[k]? = some s ∧ s.1 ≤ j ∧ j ≤ s.2 ∧ i = cutBefore d.cuts k := by
  unfold firstAligned at h
  obtain ⟨hal, hfirst⟩ := List.find?_eq_some_iff_append.1 h
  obtain ⟨a, b, hab, hno⟩ := hfirst
  have hi : i = a.length := by
    have h1 : (List.range len)[a.length]? = some i := by rw [hab]; simp
    rw [List.getElem?_range (by
      have := congrArg List.length hab; simp at this; omega)] at h1
    simpa using h1.symm
  obtain ⟨k, s, h1, h2, h3, h4, h5⟩ := (areAligned_iff hw _ _).1 hal
  refine ⟨k, s, h1, h2, h3, ?_⟩
  rcases Nat.lt_or_ge (cutBefore d.cuts k) i with hlt | hge
  · exfalso
    have hmem : cutBefore d.cuts k ∈ a := by
      have h6 : (List.range len)[cutBefore d.cuts k]? = some (cutBefore d.cuts k) := by
        have : cutBefore d.cuts k < len := by
          have := congrArg List.length hab; simp at this; omega
        exact List.getElem?_range this
      rw [hab, List.getElem?_append_left (by omega)] at h6
      exact List.mem_iff_getElem?.2 ⟨_, h6⟩
    have := hno _ hmem
    rw [(areAligned_iff hw j (cutBefore d.cuts k + 1)).2 ⟨k, s, h1, h2, h3, by omega, by omega⟩] at this
    cases this
  · omega

theorem constrLoop_id {n : Nat} {I : Input} (hI : FromRaw I) {d : HypData} (hw : WfHyp n d) (hk : Kept I.md d) :
    ∀ (cs : List Segm), (∀ c ∈ cs, ∃ t, (c, t) ∈ I.md.srcPhrTransMap) →
      constrLoop I.md d cs d.ntarget.tail = some d.ntarget.tail
  | [], _ => rfl
  | c :: cs, h => by
    have ih := constrLoop_id hI hw hk cs fun c' hc' => h c' (by simp [hc'])
    unfold constrLoop
    split
    · exact ih
    · rename_i i hi
      obtain ⟨k, s, h1, h2, h3, h4⟩ := firstAligned_spec hw hi
      obtain ⟨t, ht⟩ := h c (by simp)
      obtain ⟨f1, f2⟩ := fromRaw_facts hI
      obtain ⟨g1, g2, g3, g4, g5⟩ := f1 (c, t) ht
      dsimp only at g1 g2 g3 g4 g5
      obtain ⟨e1, e2⟩ := hk k s h1 (c, t) ht ⟨c.1, h2, h3, Nat.le_refl _, g2⟩
      have hkc : k < d.cuts.length := by rw [hw.len]; exact (List.getElem?_eq_some_iff.1 h1).1
      have hcut := cut_le hw hkc
      have hle := Meta.cutBefore_le hw.sorted hkc
      dsimp only at e2
      have hlen : t.length = d.cuts.getD k 0 - cutBefore d.cuts k := by
        rw [← e2]; simp only [words, List.length_take, List.length_drop, List.length_tail]; omega
      rw [g5, replaceConstr_id d.ntarget.tail t i (by rw [h4, hlen]; exact e2)]
      exact ih

/-- The text of a hypothesis that respects the constraints: its target words, the unknown ones replaced by the source words
they are aligned with. -/
theorem textTs_eq {n : Nat} {I : Input} (hI : FromRaw I) {d : HypData} (hw : WfHyp n d) (hk : Kept I.md d) :
    textTs I d = some (d.ntarget.tail.mapIdx fun i w => replaceUnk I.src d i w) := by
  unfold textTs
  rw [constrLoop_id hI hw hk]
  intro c hc
  simp only [Meta.getConstrainedSrcPhrases, List.mem_map] at hc
  obtain ⟨e, he, rfl⟩ := hc
  exact ⟨e.2, he⟩

theorem reach_kept {M : Model} {I : Input} (hI : FromRaw I) {h : Hyp} (hr : Reach .trans M I h) : Kept I.md h.data := by
  induction hr with
  | null => intro k s hs; simp [nullData] at hs
  | step hr he hm ih =>
    obtain ⟨l, r, trg, hd, hg, h1, h2, h3, hu, _⟩ := step_spec he hm
    obtain ⟨t, ht, ht'⟩ := List.mem_map.1 hg.1
    rw [← ht']
    exact kept_extend hI (C81_wf hr) ih h2 ht

/-- Constraints are honoured by a text (seen as the target words of the segments of a hypothesis). -/
def ConstraintsHonoured (md : MD) (d : HypData) (tw : List Str) : Prop :=
  ∀ e ∈ md.srcPhrTransMap, ∀ (k : Nat) (s : Segm), d.srcSegm[k]? = some s → Meet s e.1 →
    s = e.1 ∧ words tw (cutBefore d.cuts k) (d.cuts.getD k 0) = e.2

theorem honours_of_kept {d : HypData} {I : Input} (hI : FromRaw I) {tw : List Str}
    (h : ConstraintsHonoured I.md d tw) : ∀ e ∈ I.md.srcPhrTransMap, Meta.Honours d.srcSegm d.cuts tw e.1 e.2 := by
  intro e he k hk h1 h2
  obtain ⟨f1, _⟩ := fromRaw_facts hI
  exact h e he k _ (List.getElem?_eq_getElem hk) ⟨e.1.1, h1, h2, Nat.le_refl _, (f1 e he).2.1⟩

/-- Expansion while translating never reads out of bounds. -/
theorem C82_expand_safe {M : Model} {I : Input} (hI : FromRaw I) {h : Hyp} (hr : Reach .trans M I h) :
    ∃ hs, expandMode .trans M I h = some hs := by
  have hw := C81_wf hr
  have hk := reach_kept hI hr
  simp only [expandMode, expand]
  obtain ⟨ds, hds⟩ := filterM?_some (keepExt I)
    ((segmsToTry M (Meta.srcPhrAffectedByConstraint I.md) (extractGaps I.src.length (covered h.data))).flatMap
      fun s => hypDataForGap M I h.data s.1 s.2) (by
      intro d hd hn
      obtain ⟨s, hs, hd⟩ := List.mem_flatMap.1 hd
      obtain ⟨g, hg, a1, a2, a3, a4, a5⟩ := (mem_segmsToTry _ _ _ _).1 hs
      have hgap := (C80_gaps _ _ _).1 hg
      have b1 := hgap.first; have b2 := hgap.last
      obtain ⟨t, ht, rfl⟩ := List.mem_map.1 hd
      have hw' : WfHyp I.src.length (extend h.data s.1 s.2 t.2) :=
        wf_extend hw (by omega) a2 (by omega) fun j hj hj' => hgap.free j (by omega) (by omega)
      have hk' := kept_extend hI hw hk a2 ht
      unfold keepExt at hn
      rw [textTs_eq hI hw' hk'] at hn
      dsimp only at hn
      obtain ⟨b, hb, _⟩ := Meta.C79_satisfies I.md _ _ _ (alignment_of_wf hw'
        ((extend h.data s.1 s.2 t.2).ntarget.tail.mapIdx fun i w => replaceUnk I.src (extend h.data s.1 s.2 t.2) i w) (by simp))
      rw [hb] at hn; cases hn)
  rw [hds]
  exact ⟨_, rfl⟩

/-- Every hypothesis of a translation has a text (nothing is read out of bounds) of the expected length in which every
translated word of every constrained phrase belongs to a segment that is exactly the phrase and is translated by exactly
the given words. -/
theorem C82_honoured {M : Model} {I : Input} (hI : FromRaw I) {h : Hyp} (hr : Reach .trans M I h) :
    ∃ tw, textTs I h.data = some tw ∧ tw.length = h.data.ntarget.length - 1 ∧ ConstraintsHonoured I.md h.data tw := by
  have hw := C81_wf hr
  have hk := reach_kept hI hr
  refine ⟨_, textTs_eq hI hw hk, by simp, ?_⟩
  intro e he k s hs hm
  obtain ⟨e1, _⟩ := hk k s hs e he hm
  refine ⟨e1, ?_⟩
  cases hr with
  | null => simp [nullData] at hs
  | step hr' he' hm' =>
    obtain ⟨l, r, trg, hd, hg, h1, h2, h3, hu, _⟩ := step_spec he' hm'
    have hkeep := hg.2
    unfold keepExt at hkeep
    rw [textTs_eq hI hw hk] at hkeep
    dsimp only at hkeep
    obtain ⟨b, hb, hb'⟩ := Meta.C79_satisfies I.md _ _ _ (alignment_of_wf hw
      (h.data.ntarget.tail.mapIdx fun i w => replaceUnk I.src h.data i w) (by simp))
    rw [hb] at hkeep
    cases hkeep
    have hh := hb'.1 rfl e he
    obtain ⟨hkl, hke⟩ := List.getElem?_eq_some_iff.1 hs
    obtain ⟨f1, _⟩ := fromRaw_facts hI
    have f2 := (f1 e he).2.1
    exact (hh k hkl (by rw [hke, e1]; exact Nat.le_refl _) (by rw [hke, e1]; exact f2)).2

/-- In a complete translation every constraint is used: its phrase is one of the segments, translated by the given
words, which appear contiguously in the text. -/
theorem C82_complete {M : Model} {I : Input} (hI : FromRaw I) {h : Hyp} (hr : Reach .trans M I h)
    (hc : isComplete I.src.length h.data = true) : ∃ tw, textTs I h.data = some tw ∧
      ∀ e ∈ I.md.srcPhrTransMap, (∃ k : Nat, h.data.srcSegm[k]? = some e.1 ∧
        words tw (cutBefore h.data.cuts k) (h.data.cuts.getD k 0) = e.2) ∧ e.2 <:+: tw := by
  obtain ⟨tw, h1, h2, h3⟩ := C82_honoured hI hr
  refine ⟨tw, h1, fun e he => ?_⟩
  obtain ⟨f1, _⟩ := fromRaw_facts hI
  obtain ⟨g1, g2, g3, g4, g5⟩ := f1 e he
  have hcov := (isComplete_iff (C81_wf hr)).1 hc e.1.1 g1 (by omega)
  obtain ⟨s, hs, hs1, hs2⟩ := (covered_iff _ _).1 hcov
  obtain ⟨k, hk⟩ := List.mem_iff_getElem?.1 hs
  obtain ⟨e1, e2⟩ := h3 e he k s hk ⟨e.1.1, hs1, hs2, Nat.le_refl _, g2⟩
  refine ⟨⟨k, by rw [hk, e1], e2⟩, ?_⟩
  rw [← e2]
  exact ⟨tw.take (cutBefore h.data.cuts k),
    (tw.drop (cutBefore h.data.cuts k)).drop (h.data.cuts.getD k 0 - cutBefore h.data.cuts k), by
      rw [words, List.append_assoc, List.take_append_drop, List.take_append_drop]⟩

/-! ### A sentence with a constraint -/

def exCInput : Input where
  src := ["a".toList, "b".toList]
  md := ⟨["a".toList, "b".toList], [((2, 2), ["w".toList])]⟩

theorem exC_raw : FromRaw exCInput :=
  ⟨"a <phr_pair_annot> <src_segm> b </src_segm> <trg_segm> w </trg_segm> </phr_pair_annot>".toList,
    by decide +kernel, rfl⟩

def exCHyp : Hyp := ⟨-5, extend (extend nullData 1 1 ["x".toList]) 2 2 ["w".toList]⟩

theorem exC_reach : Reach .trans exModel exCInput exCHyp := by
  refine .step (h := ⟨-2, extend nullData 1 1 ["x".toList]⟩) (hs := [exCHyp]) ?_ (by decide +kernel) (by decide)
  exact .step (hs := [⟨-2, extend nullData 1 1 ["x".toList]⟩, ⟨-2, extend nullData 2 2 ["w".toList]⟩])
    .null (by decide +kernel) (by decide)

example : isComplete 2 exCHyp.data = true ∧ textTs exCInput exCHyp.data = some ["x".toList, "w".toList] := by decide +kernel

end Thot.Search
