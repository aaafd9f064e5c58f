import Verif.Search.Gaps

/-!
Property C81: every hypothesis built by the expansion functions (in the four modes) is a partial phrase-based
segmentation of the source sentence.
-/
namespace Thot.Search
open Thot.StrProc (Str)
open Thot.Meta (MD Segm)

/-- The hypotheses generated from the null hypothesis. -/
inductive Reach (m : Mode) (M : Model) (I : Input) : Hyp → Prop
  | null : Reach m M I ⟨M.nullScore, nullData⟩
  | step {h h' : Hyp} {hs : List Hyp} : Reach m M I h → expandMode m M I h = some hs → h' ∈ hs → Reach m M I h'

/-- A well-formed partial translation of a sentence of `n` words: `NULL` and the target words; disjoint source segments
inside the sentence; one cut per segment, not decreasing, the last one at the end of the target words. -/
structure WfHyp (n : Nat) (d : HypData) : Prop where
  head : d.ntarget.head? = some nullWord
  inside : ∀ s ∈ d.srcSegm, 1 ≤ s.1 ∧ s.1 ≤ s.2 ∧ s.2 ≤ n
  disjoint : d.srcSegm.Pairwise fun a b => a.2 < b.1 ∨ b.2 < a.1
  len : d.cuts.length = d.srcSegm.length
  sorted : d.cuts.Pairwise (· ≤ ·)
  last : d.cuts.getLast?.getD 0 + 1 = d.ntarget.length

theorem rightEnds_mem (A : Nat) (ca : Segm → Bool) (l : Nat) : ∀ (m r r' : Nat), r' ∈ rightEnds A ca l m r ↔
    r ≤ r' ∧ r' < r + m ∧ ∀ x, r ≤ x → x ≤ r' → (x + 1 - l ≤ A ∨ ca (l, x) = true)
  | 0, r, r' => by simp [rightEnds]; omega
  | m + 1, r, r' => by
    unfold rightEnds
    split
    · rename_i h
      simp only [List.not_mem_nil, false_iff]
      rintro ⟨h1, h2, h3⟩
      rcases h3 r (Nat.le_refl _) h1 with h' | h'
      · omega
      · simp [h'] at h
    · rename_i h
      rw [List.mem_cons, rightEnds_mem A ca l m (r + 1) r']
      have h0 : r + 1 - l ≤ A ∨ ca (l, r) = true := by
        rcases Nat.lt_or_ge A (r + 1 - l) with h' | h'
        · refine Or.inr ?_
          cases hc : ca (l, r) with
          | true => rfl
          | false => exact absurd ⟨h', hc⟩ h
        · exact Or.inl h'
      constructor
      · rintro (rfl | ⟨h1, h2, h3⟩)
        · refine ⟨Nat.le_refl _, by omega, fun x hx hx' => ?_⟩
          rw [show x = r' by omega]; exact h0
        · refine ⟨by omega, by omega, fun x hx hx' => ?_⟩
          rcases Nat.lt_or_ge r x with h' | h'
          · exact h3 x h' hx'
          · rw [show x = r by omega]; exact h0
      · rintro ⟨h1, h2, h3⟩
        rcases Nat.lt_or_ge r r' with h' | h'
        · exact Or.inr ⟨h', by omega, fun x hx hx' => h3 x (by omega) hx'⟩
        · exact Or.inl (by omega)

theorem mem_segmsToTry (M : Model) (ca : Segm → Bool) (gaps : List Segm) (s : Segm) :
    s ∈ segmsToTry M ca gaps ↔ ∃ g ∈ gaps, g.1 ≤ s.1 ∧ s.1 ≤ s.2 ∧ s.2 ≤ g.2 ∧ s.1 - g.1 ≤ M.U ∧
      ∀ x, s.1 ≤ x → x ≤ s.2 → (x + 1 - s.1 ≤ M.A ∨ ca (s.1, x) = true) := by
  simp only [segmsToTry, List.mem_flatMap, List.mem_range]
  constructor
  · rintro ⟨g, hg, x, hx, hs⟩
    split at hs
    · rename_i hU
      obtain ⟨r, hr, rfl⟩ := List.mem_map.1 hs
      rw [rightEnds_mem] at hr
      obtain ⟨h1, h2, h3⟩ := hr
      exact ⟨g, hg, by simp, h1, by simp; omega, by simp; omega, h3⟩
    · simp at hs
  · rintro ⟨g, hg, h1, h2, h3, h4, h5⟩
    refine ⟨g, hg, s.1 - g.1, by omega, ?_⟩
    rw [if_pos h4]
    refine List.mem_map.2 ⟨s.2, ?_, by rw [show g.1 + (s.1 - g.1) = s.1 by omega]⟩
    rw [rightEnds_mem, show g.1 + (s.1 - g.1) = s.1 by omega]
    exact ⟨h2, by omega, h5⟩

theorem filterM?_mem {α : Type} (p : α → Option Bool) : ∀ (l r : List α), filterM? p l = some r →
    ∀ a, a ∈ r ↔ a ∈ l ∧ p a = some true
  | [], r, h => by simp [filterM?] at h; subst h; simp
  | x :: l, r, h => by
    unfold filterM? at h
    split at h
    · rename_i r' hx hr; cases h
      intro a
      have := filterM?_mem p l r' hr a
      constructor
      · intro ha
        rcases List.mem_cons.1 ha with rfl | ha
        · exact ⟨by simp, hx⟩
        · exact ⟨by simp [(this.1 ha).1], (this.1 ha).2⟩
      · rintro ⟨ha, hp⟩
        rcases List.mem_cons.1 ha with rfl | ha
        · simp
        · simp [this.2 ⟨ha, hp⟩]
    · rename_i r' hx hr; cases h
      intro a
      have := filterM?_mem p l r hr a
      constructor
      · intro ha; exact ⟨by simp [(this.1 ha).1], (this.1 ha).2⟩
      · rintro ⟨ha, hp⟩
        rcases List.mem_cons.1 ha with rfl | ha
        · rw [hx] at hp; cases hp
        · exact this.2 ⟨ha, hp⟩
    · cases h

theorem filterM?_some {α : Type} (p : α → Option Bool) : ∀ (l : List α), (∀ a ∈ l, p a ≠ none) → ∃ r, filterM? p l = some r
  | [], _ => ⟨[], rfl⟩
  | x :: l, h => by
    obtain ⟨r, hr⟩ := filterM?_some p l fun a ha => h a (by simp [ha])
    have hx := h x (by simp)
    unfold filterM?
    rw [hr]
    cases hp : p x with
    | none => exact absurd hp hx
    | some b => cases b <;> simp

theorem mapM_some_mem {α β : Type} (f : α → Option β) : ∀ (l : List α) (r : List β), l.mapM f = some r →
    ∀ b, b ∈ r ↔ ∃ a ∈ l, f a = some b
  | [], r, h => by simp at h; subst h; simp
  | x :: l, r, h => by
    rw [List.mapM_cons] at h
    cases hx : f x with
    | none => simp [hx] at h
    | some y =>
      cases hl : l.mapM f with
      | none => simp [hx, hl] at h
      | some ys =>
        simp [hx, hl] at h
        subst h
        intro b
        have := mapM_some_mem f l ys hl b
        simp only [List.mem_cons, this]
        constructor
        · rintro (rfl | ⟨a, ha, hb⟩)
          · exact ⟨x, Or.inl rfl, hx⟩
          · exact ⟨a, Or.inr ha, hb⟩
        · rintro ⟨a, rfl | ha, hb⟩
          · rw [hx] at hb; cases hb; exact Or.inl rfl
          · exact Or.inr ⟨a, ha, hb⟩

/-- The extensions of `d` over segment `(l,r)` in each mode. -/
def Gen (m : Mode) (M : Model) (I : Input) (d : HypData) (l r : Nat) (d' : HypData) : Prop :=
  match m with
  | .trans => d' ∈ hypDataForGap M I d l r ∧ keepExt I d' = some true
  | .ref => ∃ ds, hypDataRef M I d l r = some ds ∧ d' ∈ ds
  | .ver => d' ∈ hypDataVer M I d l r
  | .pref => d' ∈ hypDataPref M I d l r

/-- Which segments are exempt from the length limit. -/
def exempt (m : Mode) (I : Input) : Segm → Bool :=
  match m with
  | .trans => Meta.srcPhrAffectedByConstraint I.md
  | _ => fun _ => false

theorem expandWith_mem (M : Model) (I : Input) (gen : HypData → Nat → Nat → Option (List HypData)) (h : Hyp) (hs : List Hyp)
    (he : expandWith M I gen h = some hs) (h' : Hyp) : h' ∈ hs ↔
      ∃ s ∈ segmsToTry M (fun _ => false) (extractGaps I.src.length (covered h.data)),
        (∃ ds, gen h.data s.1 s.2 = some ds ∧ h'.data ∈ ds) ∧ h'.score = h.score + M.extScore h.data h'.data := by
  unfold expandWith at he
  dsimp only at he
  split at he
  · cases he
  · rename_i dss hm
    cases he
    have hmem := mapM_some_mem _ _ _ hm
    rw [List.mem_map]
    constructor
    · rintro ⟨d, hd, rfl⟩
      obtain ⟨ds, hds, hd⟩ := List.mem_flatten.1 hd
      obtain ⟨s, hs, hg⟩ := (hmem ds).1 hds
      exact ⟨s, hs, ⟨ds, hg, hd⟩, rfl⟩
    · rintro ⟨s, hs, ⟨ds, hg, hd⟩, hsc⟩
      refine ⟨h'.data, List.mem_flatten.2 ⟨ds, (hmem ds).2 ⟨s, hs, hg⟩, hd⟩, ?_⟩
      simp only [incrScore]
      rw [← hsc]

/-- What the expansion functions generate. -/
theorem expandMode_mem (m : Mode) (M : Model) (I : Input) (h : Hyp) (hs : List Hyp)
    (he : expandMode m M I h = some hs) (h' : Hyp) : h' ∈ hs ↔
      ∃ s ∈ segmsToTry M (exempt m I) (extractGaps I.src.length (covered h.data)),
        Gen m M I h.data s.1 s.2 h'.data ∧ h'.score = h.score + M.extScore h.data h'.data := by
  cases m with
  | trans =>
    simp only [expandMode, expand] at he
    split at he
    · cases he
    · rename_i ds hf
      cases he
      have hm := filterM?_mem _ _ _ hf
      simp only [List.mem_map, hm, List.mem_flatMap, Gen, exempt]
      constructor
      · rintro ⟨d, ⟨⟨s, hs, hd⟩, hk⟩, rfl⟩
        exact ⟨s, hs, ⟨hd, hk⟩, rfl⟩
      · rintro ⟨s, hs, ⟨hd, hk⟩, hsc⟩
        refine ⟨h'.data, ⟨⟨s, hs, hd⟩, hk⟩, ?_⟩
        simp only [incrScore]
        rw [← hsc]
  | ref => exact expandWith_mem M I _ h hs he h'
  | ver =>
    have := expandWith_mem M I (fun d l r => some (hypDataVer M I d l r)) h hs he h'
    rw [this]; simp [Gen, exempt]
  | pref =>
    have := expandWith_mem M I (fun d l r => some (hypDataPref M I d l r)) h hs he h'
    rw [this]; simp [Gen, exempt]

/-- Every extension adds one segment and its target words. -/
theorem Gen.extend {m : Mode} {M : Model} {I : Input} {d d' : HypData} {l r : Nat} (h : Gen m M I d l r d') :
    ∃ trg, d' = extend d l r trg := by
  cases m with
  | trans =>
    obtain ⟨e, _, rfl⟩ := List.mem_map.1 h.1
    exact ⟨e.2, rfl⟩
  | ref =>
    obtain ⟨ds, hd, hm⟩ := h
    unfold hypDataRef at hd
    obtain ⟨t, _, rfl⟩ := Option.map_eq_some_iff.1 hd
    obtain ⟨e, _, rfl⟩ := List.mem_map.1 (List.mem_filter.1 hm).1
    exact ⟨e.2, rfl⟩
  | ver =>
    obtain ⟨e, _, rfl⟩ := List.mem_map.1 (List.mem_filter.1 h).1
    exact ⟨e.2, rfl⟩
  | pref =>
    obtain ⟨e, _, rfl⟩ := List.mem_map.1 h
    exact ⟨e.2, rfl⟩

theorem covered_iff (d : HypData) (j : Nat) : covered d j = true ↔ ∃ s ∈ d.srcSegm, s.1 ≤ j ∧ j ≤ s.2 := by
  simp [covered]

theorem covered_false_iff (d : HypData) (j : Nat) : covered d j = false ↔ ∀ s ∈ d.srcSegm, s.1 ≤ j → s.2 < j := by
  simp [covered]

/-- Extension of a hypothesis over uncovered positions. -/
theorem wf_extend {n : Nat} {d : HypData} (hw : WfHyp n d) {l r : Nat} {trg : List Str} (h1 : 1 ≤ l) (hlr : l ≤ r)
    (hr : r ≤ n) (hu : ∀ j, l ≤ j → j ≤ r → covered d j = false) : WfHyp n (extend d l r trg) where
  head := by
    have := hw.head
    cases hn : d.ntarget with
    | nil => rw [hn] at this; cases this
    | cons a t => rw [hn] at this; simpa [extend, hn] using this
  inside := by
    intro s hs
    simp only [extend, List.mem_append, List.mem_singleton] at hs
    rcases hs with hs | rfl
    · exact hw.inside s hs
    · exact ⟨h1, hlr, hr⟩
  disjoint := by
    simp only [extend, List.pairwise_append]
    refine ⟨hw.disjoint, by simp, fun a ha b hb => ?_⟩
    simp only [List.mem_singleton] at hb
    subst hb
    dsimp only
    have ha' := hw.inside a ha
    rcases Nat.lt_or_ge a.2 l with h | h
    · exact Or.inl h
    · refine Or.inr ?_
      rcases Nat.lt_or_ge r a.1 with h' | h'
      · exact h'
      · have hx := (covered_false_iff d (max a.1 l)).1 (hu _ (by omega) (by omega)) a ha (by omega)
        omega
  len := by simp [extend, hw.len]
  sorted := by
    simp only [extend, List.pairwise_append]
    refine ⟨hw.sorted, by simp, fun a ha b hb => ?_⟩
    simp only [List.mem_singleton] at hb
    subst hb
    have hlast := hw.last
    have : a ≤ d.cuts.getLast?.getD 0 := by
      rcases List.eq_nil_or_concat d.cuts with hc | ⟨c', c, hc⟩
      · rw [hc] at ha; simp at ha
      · rw [List.concat_eq_append] at hc
        have hs := hw.sorted
        rw [hc] at ha hs ⊢
        simp only [List.getLast?_concat, Option.getD_some]
        rcases List.mem_append.1 ha with ha | ha
        · exact (List.pairwise_append.1 hs).2.2 a ha c (by simp)
        · simp at ha; omega
    simp only [List.length_append]
    omega
  last := by
    simp only [extend, List.getLast?_concat, Option.getD_some]
    have := hw.last
    simp only [List.length_append]
    omega

theorem wf_null (n : Nat) : WfHyp n nullData where
  head := rfl
  inside := by simp [nullData]
  disjoint := by simp [nullData]
  len := rfl
  sorted := by simp [nullData]
  last := rfl

/-- One expansion step, in any mode. -/
theorem step_spec {m : Mode} {M : Model} {I : Input} {h h' : Hyp} {hs : List Hyp}
    (he : expandMode m M I h = some hs) (hm : h' ∈ hs) : ∃ l r trg, h'.data = extend h.data l r trg ∧
      Gen m M I h.data l r h'.data ∧ 1 ≤ l ∧ l ≤ r ∧ r ≤ I.src.length ∧
      (∀ j, l ≤ j → j ≤ r → covered h.data j = false) ∧
      (∀ x, l ≤ x → x ≤ r → (x + 1 - l ≤ M.A ∨ exempt m I (l, x) = true)) ∧
      (∃ g, MaxGap I.src.length (covered h.data) g ∧ g.1 ≤ l ∧ r ≤ g.2 ∧ l - g.1 ≤ M.U) ∧
      h'.score = h.score + M.extScore h.data h'.data := by
  obtain ⟨s, hs, hg, hsc⟩ := (expandMode_mem m M I h hs he h').1 hm
  obtain ⟨g, hgm, h1, h2, h3, h4, h5⟩ := (mem_segmsToTry _ _ _ _).1 hs
  have hgap := (C80_gaps _ _ _).1 hgm
  obtain ⟨trg, ht⟩ := hg.extend
  have := hgap.first; have := hgap.last
  exact ⟨s.1, s.2, trg, ht, hg, by omega, h2, by omega, fun j hj hj' => hgap.free j (by omega) (by omega), h5,
    ⟨g, hgap, h1, h3, h4⟩, hsc⟩

/-- Every hypothesis built is well formed. -/
theorem C81_wf {m : Mode} {M : Model} {I : Input} {h : Hyp} (hr : Reach m M I h) : WfHyp I.src.length h.data := by
  induction hr with
  | null => exact wf_null _
  | step _ he hm ih =>
    obtain ⟨l, r, trg, hd, _, h1, h2, h3, hu, _⟩ := step_spec he hm
    rw [hd]
    exact wf_extend ih h1 h2 h3 hu

/-- An expansion covers one segment of uncovered words; the segment starts at most `U` words after the beginning of the
gap it lies in and has at most `A` words, unless (only when translating) its initial segments of more than `A` words are
affected by a constraint. The score grows by the score of the extension. -/
theorem C81_expand {m : Mode} {M : Model} {I : Input} {h h' : Hyp} {hs : List Hyp}
    (he : expandMode m M I h = some hs) (hm : h' ∈ hs) : ∃ l r trg, h'.data = extend h.data l r trg ∧
      1 ≤ l ∧ l ≤ r ∧ r ≤ I.src.length ∧
      (∀ j, l ≤ j → j ≤ r → ∀ s ∈ h.data.srcSegm, ¬ (s.1 ≤ j ∧ j ≤ s.2)) ∧
      (r + 1 - l ≤ M.A ∨ (m = .trans ∧ Meta.srcPhrAffectedByConstraint I.md (l, r) = true)) ∧
      (∀ f, 1 ≤ f → (∀ j, f ≤ j → j ≤ l → covered h.data j = false) → l - f ≤ M.U) ∧
      h'.score = h.score + M.extScore h.data h'.data := by
  obtain ⟨l, r, trg, hd, _, h1, h2, h3, hu, hA, ⟨g, hgap, hg1, hg2, hU⟩, hsc⟩ := step_spec he hm
  refine ⟨l, r, trg, hd, h1, h2, h3, fun j hj hj' s hs hc => ?_, ?_, fun f hf1 hf => ?_, hsc⟩
  · have := (covered_false_iff _ _).1 (hu j hj hj') s hs hc.1; omega
  · rcases hA r h2 (Nat.le_refl _) with h | h
    · exact Or.inl h
    · refine Or.inr ?_
      cases m with
      | trans => exact ⟨rfl, h⟩
      | ref => cases h
      | ver => cases h
      | pref => cases h
  · rcases Nat.lt_or_ge f g.1 with h | h
    · rcases hgap.left with h' | h'
      · omega
      · have := hf (g.1 - 1) (by omega) (by omega)
        rw [h'] at this; cases this
    · omega

/-! ### Complete hypotheses -/

theorem countP_seg (a b n : Nat) (h1 : 1 ≤ a) (hab : a ≤ b) (hb : b ≤ n) :
    (List.range' 1 n).countP (fun j => decide (a ≤ j) && decide (j ≤ b)) = b + 1 - a := by
  have e : List.range' 1 n = List.range' 1 (a - 1) ++ (List.range' a (b + 1 - a) ++ List.range' (b + 1) (n - b)) := by
    have h1 : List.range' a (n + 1 - a) = List.range' a (b + 1 - a) ++ List.range' (b + 1) (n - b) := by
      have := List.range'_append_1 (s := a) (m := b + 1 - a) (n := n - b)
      rw [show a + (b + 1 - a) = b + 1 by omega] at this
      rw [this, show b + 1 - a + (n - b) = n + 1 - a by omega]
    rw [← h1]
    have := List.range'_append_1 (s := 1) (m := a - 1) (n := n + 1 - a)
    rw [show 1 + (a - 1) = a by omega] at this
    rw [this, show a - 1 + (n + 1 - a) = n by omega]
  rw [e, List.countP_append, List.countP_append]
  have c1 : (List.range' 1 (a - 1)).countP (fun j => decide (a ≤ j) && decide (j ≤ b)) = 0 := by
    rw [List.countP_eq_zero]; intro j hj; rw [List.mem_range'_1] at hj; simp; omega
  have c2 : (List.range' (b + 1) (n - b)).countP (fun j => decide (a ≤ j) && decide (j ≤ b)) = 0 := by
    rw [List.countP_eq_zero]; intro j hj; rw [List.mem_range'_1] at hj; simp; omega
  have c3 : (List.range' a (b + 1 - a)).countP (fun j => decide (a ≤ j) && decide (j ≤ b)) = b + 1 - a := by
    rw [List.countP_eq_length.2, List.length_range']
    intro j hj; rw [List.mem_range'_1] at hj; simp; omega
  omega

theorem countP_or_disjoint {α : Type} (p q : α → Bool) : ∀ (l : List α), (∀ a ∈ l, p a = true → q a = false) →
    l.countP (fun a => p a || q a) = l.countP p + l.countP q
  | [], _ => rfl
  | a :: l, h => by
    have ih := countP_or_disjoint p q l fun b hb => h b (by simp [hb])
    have ha := h a (by simp)
    simp only [List.countP_cons, ih]
    cases hp : p a
    · cases hq : q a <;> simp <;> omega
    · simp [ha hp]; omega

theorem sum_len_eq_count (n : Nat) : ∀ (segs : List Segm), (∀ s ∈ segs, 1 ≤ s.1 ∧ s.1 ≤ s.2 ∧ s.2 ≤ n) →
    segs.Pairwise (fun a b => a.2 < b.1 ∨ b.2 < a.1) →
    (segs.map fun s => s.2 + 1 - s.1).sum =
      (List.range' 1 n).countP fun j => segs.any fun s => decide (s.1 ≤ j) && decide (j ≤ s.2)
  | [], _, _ => by simp
  | s :: segs, hin, hd => by
    have hs := hin s (by simp)
    rw [List.pairwise_cons] at hd
    have ih := sum_len_eq_count n segs (fun t ht => hin t (by simp [ht])) hd.2
    simp only [List.map_cons, List.sum_cons, List.any_cons]
    rw [countP_or_disjoint, countP_seg s.1 s.2 n hs.1 hs.2.1 hs.2.2, ih]
    intro j _ hj
    simp only [Bool.and_eq_true, decide_eq_true_eq] at hj
    rw [List.any_eq_false]
    intro t ht
    have := hd.1 t ht
    simp; omega

/-- The number of covered words and the number of uncovered words add up to the length of the sentence. -/
theorem covered_count {n : Nat} {d : HypData} (hw : WfHyp n d) :
    (d.srcSegm.map fun s => s.2 + 1 - s.1).sum = (List.range' 1 n).countP (covered d) :=
  sum_len_eq_count n d.srcSegm hw.inside hw.disjoint

theorem C81_no_underflow {n : Nat} {d : HypData} (hw : WfHyp n d) : (d.srcSegm.map fun s => s.2 + 1 - s.1).sum ≤ n := by
  rw [covered_count hw]
  have := List.countP_le_length (p := covered d) (l := List.range' 1 n)
  simpa using this

theorem isComplete_iff {n : Nat} {d : HypData} (hw : WfHyp n d) :
    isComplete n d = true ↔ ∀ j, 1 ≤ j → j ≤ n → covered d j = true := by
  have h1 := covered_count hw
  have h2 := List.countP_le_length (p := covered d) (l := List.range' 1 n)
  rw [List.length_range'] at h2
  simp only [isComplete, uncovered, beq_iff_eq]
  have h3 : n - (d.srcSegm.map fun s => s.2 + 1 - s.1).sum = 0 ↔ (List.range' 1 n).countP (covered d) = (List.range' 1 n).length := by
    rw [List.length_range']; omega
  rw [h3, List.countP_eq_length]
  simp only [List.mem_range'_1]
  exact ⟨fun h j hj hj' => h j ⟨hj, by omega⟩, fun h j hj => h j hj.1 (by omega)⟩

/-- A hypothesis is complete exactly when every word of the sentence lies in exactly one of its segments. -/
theorem C81_complete {m : Mode} {M : Model} {I : Input} {h : Hyp} (hr : Reach m M I h) :
    isComplete I.src.length h.data = true ↔
      ∀ j, 1 ≤ j → j ≤ I.src.length → ∃ (k : Nat) (s : Segm), h.data.srcSegm[k]? = some s ∧ s.1 ≤ j ∧ j ≤ s.2 ∧
        ∀ (k' : Nat) (s' : Segm), h.data.srcSegm[k']? = some s' → s'.1 ≤ j → j ≤ s'.2 → k' = k := by
  have hw := C81_wf hr
  rw [isComplete_iff hw]
  constructor
  · intro hc j h1 hn
    obtain ⟨s, hs, hs1, hs2⟩ := (covered_iff _ _).1 (hc j h1 hn)
    obtain ⟨k, hk⟩ := List.mem_iff_getElem?.1 hs
    refine ⟨k, s, hk, hs1, hs2, fun k' s' hk' h1' h2' => ?_⟩
    obtain ⟨hkl, hke⟩ := List.getElem?_eq_some_iff.1 hk
    obtain ⟨hkl', hke'⟩ := List.getElem?_eq_some_iff.1 hk'
    have hp := List.pairwise_iff_getElem.1 hw.disjoint
    rcases Nat.lt_trichotomy k' k with h | h | h
    · have := hp k' k hkl' hkl h; rw [hke, hke'] at this; omega
    · exact h
    · have := hp k k' hkl hkl' h; rw [hke, hke'] at this; omega
  · intro hc j h1 hn
    obtain ⟨k, s, hk, hs1, hs2, _⟩ := hc j h1 hn
    exact (covered_iff _ _).2 ⟨s, List.mem_iff_getElem?.2 ⟨k, hk⟩, hs1, hs2⟩

/-- The predecessor of an extension is the hypothesis extended, whenever the extension has some target word. -/
theorem C81_predecessor {m : Mode} {M : Model} {I : Input} {h : Hyp} (hr : Reach m M I h) (l r : Nat) (trg : List Str)
    (ht : h.data.ntarget.length + trg.length ≥ 2) : predecessor (extend h.data l r trg) = some h.data := by
  have hw := C81_wf hr
  have hlast := hw.last
  unfold predecessor
  dsimp only
  have h1 : ¬ (extend h.data l r trg).ntarget.length ≤ 1 := by simp [extend]; omega
  have h2 : (extend h.data l r trg).cuts.length = h.data.cuts.length + 1 := by simp [extend]
  rw [if_neg h1, if_neg (by rw [h2]; omega)]
  have hi : (if (extend h.data l r trg).cuts.length = 1 then (extend h.data l r trg).cuts.getD 0 0
      else (extend h.data l r trg).cuts.getD ((extend h.data l r trg).cuts.length - 1) 0 -
        (extend h.data l r trg).cuts.getD ((extend h.data l r trg).cuts.length - 2) 0) = trg.length := by
    rw [h2]
    rcases List.eq_nil_or_concat h.data.cuts with hc | ⟨c', c, hc⟩
    · rw [hc] at hlast
      simp at hlast
      simp [hc, extend]; omega
    · rw [List.concat_eq_append] at hc
      rw [hc] at hlast
      simp only [List.getLast?_concat, Option.getD_some] at hlast
      rw [if_neg (by simp [hc])]
      simp [hc, extend]
      omega
  rw [hi]
  simp [extend]

-- Two words, the second translated first.
def exModel : Model where
  A := 2
  E := 1
  U := 5
  W := .best 10
  opts := fun s => if s = ["a".toList] then [["x".toList]] else if s = ["b".toList] then [["y".toList, "z".toList]] else []
  phrScore := fun _ t => -(t.length : Int)
  extScore := fun _ d => -(d.ntarget.length : Int)
  heur := fun _ => 0

def exInput : Input where
  src := ["a".toList, "b".toList]
  md := ⟨[], []⟩
  ref := ["x".toList, "y".toList]
  pref := ["x".toList]

def exHyp : Hyp := ⟨-7, extend (extend nullData 2 2 ["y".toList, "z".toList]) 1 1 ["x".toList]⟩

theorem exHyp_reach : Reach .trans exModel exInput exHyp := by
  refine .step (h := ⟨-3, extend nullData 2 2 ["y".toList, "z".toList]⟩) (hs := [exHyp]) ?_ (by decide +kernel) (by decide)
  exact .step (hs := [⟨-2, extend nullData 1 1 ["x".toList]⟩, ⟨-3, extend nullData 2 2 ["y".toList, "z".toList]⟩])
    .null (by decide +kernel) (by decide)

example : isComplete 2 exHyp.data = true ∧ predecessor exHyp.data = some (extend nullData 2 2 ["y".toList, "z".toList]) := by
  decide +kernel

end Thot.Search
