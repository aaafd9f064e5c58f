import Verif.Srf.Count

/-! Segmentation-based (BRF) extraction: the weight of a phrase pair is the fraction of the bilingual segmentations of the sentence
pair that use it. -/

namespace Thot.Srf

open Thot.WordAlig (Mat)
open Thot.PhrExtract
open AMap

/-! ### Specification -/

/-- The source segments follow each other from position `a` to position `I`. -/
def SrcChain (I : Nat) : Nat → List Span → Prop
  | a, [] => a = I + 1
  | a, s :: σ => s.x1 = a ∧ SrcChain I (s.x2 + 1) σ

/-- The source (target) segment has the position. -/
def inSrc (i : Nat) (s : Span) : Bool := decide (s.x1 ≤ i) && decide (i ≤ s.x2)
def inTrg (j : Nat) (s : Span) : Bool := decide (s.y1 ≤ j) && decide (j ≤ s.y2)

/-- A bilingual segmentation with pairs of `L`: the source segments, from left to right, are the whole source sentence (`I` words),
and each of the `J` target words is in the target segment of exactly one of the pairs. -/
def IsBisegm (L : List Span) (I J : Nat) (σ : List Span) : Prop :=
  (∀ s ∈ σ, s ∈ L) ∧ SrcChain I 1 σ ∧ ∀ j, 1 ≤ j → j ≤ J → σ.countP (inTrg j) = 1

/-- The phrase pair of a pair of segments used in `k` of `n` segmentations. -/
def weighted (ns t : List String) (k n : Nat) (s : Span) : Phrase :=
  { s := (ns.drop s.x1).take (s.x2 + 1 - s.x1)
    t := (t.drop (s.y1 - 1)).take (s.y2 + 1 - s.y1)
    num := k
    den := n }

/-! ### The enumeration -/

/-- The pairs of segments are inside the sentences. -/
def Inside (bp : BpSet) (I J : Nat) : Prop :=
  ∀ s ∈ bp.map Prod.fst, 1 ≤ s.x1 ∧ s.x1 ≤ s.x2 ∧ s.x2 ≤ I ∧ 1 ≤ s.y1 ∧ s.y1 ≤ s.y2 ∧ s.y2 ≤ J

theorem mem_contrib {bp : BpSet} {I : Nat} {TP : Cov} {s : Span} {σ : List Span} :
    σ ∈ contrib bp I TP s ↔ ∃ TP' σ', markTrg TP s.y1 (s.y2 + 1 - s.y1) = some TP' ∧ σ' ∈ segs bp I (s.x2 + 1) TP' ∧ σ = s :: σ' := by
  unfold contrib
  cases markTrg TP s.y1 (s.y2 + 1 - s.y1) with
  | none => simp
  | some TP' =>
    simp only [List.mem_map, Option.some.injEq]
    constructor
    · rintro ⟨σ', h, rfl⟩; exact ⟨TP', σ', rfl, h, rfl⟩
    · rintro ⟨_, σ', rfl, h, rfl⟩; exact ⟨σ', h, rfl⟩

theorem cov_zero_iff (c : Cov) : c = 0 ↔ ∀ j < 128, test c j = false :=
  ⟨fun h j _ => by rw [h, test_zero], fun h => cov_ext fun k hk => by rw [h k hk, test_zero]⟩

theorem mem_segs {bp : BpSet} {I J : Nat} (hin : Inside bp I J) (hJ : J ≤ 100) (σ : List Span) : ∀ (a : Nat) (TP : Cov), a ≤ I + 1 →
    (σ ∈ segs bp I a TP ↔ (∀ s ∈ σ, s ∈ bp.map Prod.fst) ∧ SrcChain I a σ ∧
      ∀ j < 128, σ.countP (inTrg j) = if test TP j then 1 else 0) := by
  induction σ with
  | nil =>
    intro a TP ha
    rw [segs_eq bp I a ha]
    by_cases h : I < a
    · rw [if_pos h]
      have e : a = I + 1 := by omega
      by_cases ht : TP = 0
      · rw [if_pos ht]
        refine iff_of_true (by simp) ⟨by simp, e, fun j hj => ?_⟩
        rw [ht, test_zero]; simp
      · rw [if_neg ht]
        refine iff_of_false (by simp) ?_
        rintro ⟨_, _, h3⟩
        refine ht ((cov_zero_iff TP).2 fun j hj => ?_)
        have := h3 j hj
        cases hq : test TP j with
        | false => rfl
        | true => rw [hq] at this; simp at this
    · rw [if_neg h]
      refine iff_of_false ?_ ?_
      · intro q
        obtain ⟨s, _, q⟩ := List.mem_flatMap.1 q
        obtain ⟨_, _, _, _, q⟩ := mem_contrib.1 q
        cases q
      · rintro ⟨_, h2, _⟩
        have : a = I + 1 := h2
        omega
  | cons s σ ih =>
    intro a TP ha
    rw [segs_eq bp I a ha]
    by_cases h : I < a
    · rw [if_pos h]
      refine iff_of_false (by split <;> simp) ?_
      rintro ⟨h1, h2, _⟩
      have := hin s (h1 s (.head _))
      have : s.x1 = a := h2.1
      omega
    · rw [if_neg h]
      constructor
      · intro q
        obtain ⟨s', hs', q⟩ := List.mem_flatMap.1 q
        obtain ⟨TP', σ', hm, hσ, q⟩ := mem_contrib.1 q
        cases q
        obtain ⟨g1, g2, g3, g4⟩ := mem_stepsAt.1 hs'
        have hb := hin s g1
        obtain ⟨i1, i2, i3⟩ := (ih (s.x2 + 1) TP' (by omega)).1 hσ
        obtain ⟨k1, k2⟩ := (markTrg_spec _ TP s.y1 (by omega)).1 TP' hm
        refine ⟨?_, ⟨g2, i2⟩, fun j hj => ?_⟩
        · intro u hu
          rcases List.mem_cons.1 hu with rfl | hu
          · exact g1
          · exact i1 u hu
        · rw [List.countP_cons, i3 j hj, k2 j]
          by_cases q : s.y1 ≤ j ∧ j ≤ s.y2
          · have e : (s.y1 ≤ j ∧ j < s.y1 + (s.y2 + 1 - s.y1)) := by omega
            have := k1 j e.1 e.2
            simp [inTrg, q, e, this]
          · have e : ¬ (s.y1 ≤ j ∧ j < s.y1 + (s.y2 + 1 - s.y1)) := by omega
            have q' : inTrg j s = false := by simp [inTrg]; omega
            simp only [e, q', not_false_eq_true, decide_true, Bool.and_true]
            simp
      · rintro ⟨h1, ⟨h2, h3⟩, h4⟩
        have hs := h1 s (.head _)
        have hb := hin s hs
        refine List.mem_flatMap.2 ⟨s, mem_stepsAt.2 ⟨hs, h2, by omega, by omega⟩, mem_contrib.2 ?_⟩
        obtain ⟨k1, k2⟩ := markTrg_spec (s.y2 + 1 - s.y1) TP s.y1 (by omega)
        cases hm : markTrg TP s.y1 (s.y2 + 1 - s.y1) with
        | none =>
          obtain ⟨j, j1, j2, j3⟩ := k2 hm
          have := h4 j (by omega)
          have q : inTrg j s = true := by simp [inTrg]; omega
          rw [List.countP_cons, j3, if_pos q] at this
          simp at this
        | some TP' =>
          obtain ⟨g1, g2⟩ := k1 TP' hm
          refine ⟨TP', σ, rfl, (ih (s.x2 + 1) TP' (by omega)).2 ⟨fun u hu => h1 u (.tail _ hu), h3, fun j hj => ?_⟩, rfl⟩
          have := h4 j hj
          rw [List.countP_cons] at this
          rw [g2 j]
          by_cases q : s.y1 ≤ j ∧ j ≤ s.y2
          · have e : (s.y1 ≤ j ∧ j < s.y1 + (s.y2 + 1 - s.y1)) := by omega
            have q' : inTrg j s = true := by simp [inTrg, q]
            rw [g1 j e.1 e.2, if_pos q'] at this
            simp [e]
            simp at this
            simpa using this
          · have e : ¬ (s.y1 ≤ j ∧ j < s.y1 + (s.y2 + 1 - s.y1)) := by omega
            have q' : inTrg j s = false := by simp [inTrg]; omega
            rw [q'] at this
            simp only [e, not_false_eq_true, decide_true, Bool.and_true]
            simpa using this

theorem nodup_segs {bp : BpSet} (hd : Distinct bp) (I : Nat) (n : Nat) : ∀ (a : Nat) (TP : Cov), a ≤ I + 1 → I + 1 - a = n → (segs bp I a TP).Nodup := by
  induction n using Nat.strongRecOn with
  | _ n ih =>
    intro a TP ha hn
    rw [segs_eq bp I a ha]
    by_cases h : I < a
    · rw [if_pos h]; split <;> simp
    · rw [if_neg h]
      refine nodup_flatMap' _ _ (nodup_stepsAt hd I a) ?_ ?_
      · intro s hs
        obtain ⟨_, h1, h2, h3⟩ := mem_stepsAt.1 hs
        unfold contrib
        cases markTrg TP s.y1 (s.y2 + 1 - s.y1) with
        | none => simp
        | some TP' =>
          exact nodup_map' _ _ (ih (I + 1 - (s.x2 + 1)) (by omega) (s.x2 + 1) TP' (by omega) rfl) fun _ _ _ _ h => by simpa using h
      · intro s s' σ h1 h2
        obtain ⟨_, _, _, _, q⟩ := mem_contrib.1 h1
        obtain ⟨_, _, _, _, q'⟩ := mem_contrib.1 h2
        rw [q] at q'
        simp only [List.cons.injEq] at q'
        exact q'.1

theorem chain_ge {bp : BpSet} {I J : Nat} (hin : Inside bp I J) (σ : List Span) : ∀ a, SrcChain I a σ → (∀ s ∈ σ, s ∈ bp.map Prod.fst) → ∀ s ∈ σ, a ≤ s.x1 := by
  induction σ with
  | nil => intro a _ _ s hs; cases hs
  | cons u σ ih =>
    intro a h hk s hs
    have := hin u (hk u (.head _))
    have h1 : u.x1 = a := h.1
    rcases List.mem_cons.1 hs with rfl | hs
    · omega
    · have := ih _ h.2 (fun s hs => hk s (.tail _ hs)) s hs
      omega

theorem chain_nodup {bp : BpSet} {I J : Nat} (hin : Inside bp I J) (σ : List Span) : ∀ a, SrcChain I a σ → (∀ s ∈ σ, s ∈ bp.map Prod.fst) → σ.Nodup := by
  induction σ with
  | nil => intro a _ _; exact List.nodup_nil
  | cons u σ ih =>
    intro a h hk
    have hu := hin u (hk u (.head _))
    refine List.nodup_cons.2 ⟨fun q => ?_, ih _ h.2 fun s hs => hk s (.tail _ hs)⟩
    have := chain_ge hin σ _ h.2 (fun s hs => hk s (.tail _ hs)) u q
    omega

theorem chain_cov {bp : BpSet} {I J : Nat} (hin : Inside bp I J) (σ : List Span) : ∀ a, SrcChain I a σ → (∀ s ∈ σ, s ∈ bp.map Prod.fst) →
    ∀ i, σ.countP (inSrc i) = if a ≤ i ∧ i ≤ I then 1 else 0 := by
  induction σ with
  | nil =>
    intro a h _ i
    have : a = I + 1 := h
    rw [if_neg (by omega)]; rfl
  | cons u σ ih =>
    intro a h hk i
    have hu := hin u (hk u (.head _))
    have h1 : u.x1 = a := h.1
    rw [List.countP_cons, ih _ h.2 (fun s hs => hk s (.tail _ hs)) i]
    by_cases q : u.x1 ≤ i ∧ i ≤ u.x2
    · have q' : inSrc i u = true := by simp [inSrc, q]
      rw [q', if_neg (by omega), if_pos rfl, if_pos (by omega)]
    · have q' : inSrc i u = false := by simp [inSrc]; omega
      rw [q']
      by_cases e : a ≤ i ∧ i ≤ I
      · rw [if_pos (by omega), if_pos e]; rfl
      · rw [if_neg (by omega), if_neg e]; rfl

theorem occ_eq_countP {B : List (List Span)} (h : ∀ σ ∈ B, σ.Nodup) (u : Span) : occ B u = B.countP fun σ => decide (u ∈ σ) := by
  induction B with
  | nil => rfl
  | cons σ B ih =>
    rw [List.countP_cons, ← ih fun σ hσ => h σ (.tail _ hσ)]
    simp only [occ, List.map_cons, List.sum_cons]
    have hσ := h σ (.head _)
    by_cases q : u ∈ σ
    · rw [hσ.count, if_pos q]; simp [q]; omega
    · rw [List.count_eq_zero.2 q]; simp [q]

/-! ### The pairs of segments of a sentence pair -/

theorem entrySpan_eq {e : Ctx} (he : e.Ok) {q : (Nat × Nat) × Cov} (hq : q ∈ entries e) {s : Span} (hs : SpanOf e q s) :
    entrySpan e q.1.1 q.1.2 q.2 = s := by
  obtain ⟨s', hs', h1, h2⟩ := entry_span he hq
  obtain ⟨p1, p2, p3, p4⟩ := hs
  obtain ⟨r1, r2, r3, r4⟩ := hs'
  obtain ⟨e1, e2⟩ := intv_unique p3 r3 p4 r4
  have hm : e.nslen ≤ 101 := he.nsmax
  unfold entrySpan
  rw [minMax_intv p4 (by omega) p3 (by simp only [maxSentLen]; omega) (by omega)]
  obtain ⟨x1, x2, y1, y2⟩ := s
  simp only [Span.mk.injEq, true_and]
  exact ⟨p1.symm, p2.symm⟩

/-- The segments of the entries of the table. -/
def spans (e : Ctx) : List Span := (entries e).map fun q => entrySpan e q.1.1 q.1.2 q.2

theorem spans_nodup {e : Ctx} (he : e.Ok) : (spans e).Nodup := by
  apply nodup_map' _ _ (entries_nodup he)
  intro q hq q' hq' h
  obtain ⟨s, hs, _⟩ := entry_span he hq
  obtain ⟨s', hs', _⟩ := entry_span he hq'
  rw [entrySpan_eq he hq hs, entrySpan_eq he hq' hs'] at h
  subst h
  obtain ⟨⟨x, y⟩, c⟩ := q
  obtain ⟨⟨x', y'⟩, c'⟩ := q'
  obtain ⟨q1, q2, q3, q4⟩ := hs
  obtain ⟨r1, r2, r3, r4⟩ := hs'
  simp only at q1 q2 q3 q4 r1 r2 r3 r4
  obtain ⟨h1, _⟩ := (mem_entries he).1 hq
  obtain ⟨h1', _⟩ := (mem_entries he).1 hq'
  have : c = c' := cov_ext fun k _ => by rw [Bool.eq_iff_iff]; exact (q4 k).trans (r4 k).symm
  subst this
  have hx : x = x' := by omega
  have hy : y = y' := by omega
  subst hx hy
  rfl

theorem fold_keys (l : List ((Nat × Nat) × Cov)) (f : (Nat × Nat) × Cov → Span) (b : BpSet) (hd : Distinct b) :
    Distinct (l.foldl (fun b q => incrPair b (f q) 1) b) ∧
    ∀ s, s ∈ (l.foldl (fun b q => incrPair b (f q) 1) b).map Prod.fst ↔ s ∈ b.map Prod.fst ∨ s ∈ l.map f := by
  induction l generalizing b with
  | nil => exact ⟨hd, fun s => by simp⟩
  | cons q l ih =>
    rw [List.foldl_cons]
    obtain ⟨h1, h2⟩ := ih _ (distinct_incr hd (f q) 1)
    refine ⟨h1, fun s => ?_⟩
    rw [h2, mem_keys, mem_keys, List.map_cons, List.mem_cons]
    unfold incrPair
    rw [lk_put]
    by_cases h : s = f q
    · simp [h]
    · simp [h]

theorem bpSet_keys (e : Ctx) : Distinct (obtainBpSet e (fillTable e)) ∧
    ∀ s, s ∈ (obtainBpSet e (fillTable e)).map Prod.fst ↔ s ∈ spans e := by
  obtain ⟨h1, h2⟩ := fold_keys (entries e) (fun q => entrySpan e q.1.1 q.1.2 q.2) [] distinct_nil
  refine ⟨h1, fun s => (h2 s).trans ?_⟩
  simp [spans]

theorem mapM_some {α β : Type} (l : List α) (f : α → Option β) (g : α → β) (h : ∀ a ∈ l, f a = some (g a)) : l.mapM f = some (l.map g) := by
  induction l with
  | nil => rfl
  | cons a l ih =>
    rw [List.mapM_cons, h a (.head _), ih fun a ha => h a (.tail _ ha)]
    rfl

/-- The segments, with what C74 and C75 say of them. -/
theorem spans_extract (p : Pars) (ns t : List String) (A : Mat) (h2 : 2 ≤ ns.length) (hn : ns.length ≤ 101) (ht : t.length ≤ 100)
    (hI : A.I = ns.length - 1) (hJ : A.J = t.length) :
    (spans ⟨ns.length, t.length, A, p⟩).Nodup ∧ extract p ns t A = some ((spans ⟨ns.length, t.length, A, p⟩).map (phraseOf ns t A)) ∧
      (∀ s ∈ spans ⟨ns.length, t.length, A, p⟩, Consistent A s ∧ Within p A s ∧ (p.monotone = true → MonoOk A s)) ∧
      ∀ s, Consistent A s → Within p A s → (p.monotone = true → MonoOk A s) → OneSided A s →
        (s.y1 = 1 → s.y2 = A.J → s.x1 = 1 ∧ s.x2 = A.I) → s ∈ spans ⟨ns.length, t.length, A, p⟩ := by
  have hne : ns ≠ [] := by intro e; subst e; simp at h2
  have hex : extract p ns t A = createVector ⟨ns.length, t.length, A, p⟩ ns t (fillTable ⟨ns.length, t.length, A, p⟩) := by
    unfold extract
    rw [if_neg]
    simp only [maxSentLen, hne, false_or]
    omega
  rw [hex]
  generalize he' : (⟨ns.length, t.length, A, p⟩ : Ctx) = e
  have e1 : e.nslen = ns.length := by subst he'; rfl
  have e2 : e.tlen = t.length := by subst he'; rfl
  have e3 : e.alig = A := by subst he'; rfl
  have e4 : e.pars = p := by subst he'; rfl
  have he : e.Ok := ⟨by omega, by omega, by omega, by rw [e3]; omega, by rw [e3]; omega⟩
  subst e3 e4
  have hcv : createVector e ns t (fillTable e) = (entries e).mapM fun q => mkPhrase e ns t q.1.1 q.1.2 q.2 := rfl
  rw [hcv]
  refine ⟨spans_nodup he, ?_, ?_, ?_⟩
  · rw [mapM_some (entries e) _ (fun q => phraseOf ns t e.alig (entrySpan e q.1.1 q.1.2 q.2)), spans, List.map_map]
    · rfl
    · intro q hq
      obtain ⟨s, hs, s1, s2⟩ := entry_span he hq
      rw [entrySpan_eq he hq hs]
      obtain ⟨⟨x, y⟩, c⟩ := q
      obtain ⟨x1, x2, y1, y2⟩ := s
      obtain ⟨q1, q2, q3, q4⟩ := hs
      simp only at q1 q2 q3 q4 s1 s2
      subst q1 q2
      obtain ⟨h1, h2, h3, _⟩ := (mem_entries he).1 hq
      exact mkPhrase_eq e1 e2 h1 h2 h3 s1 q3 s2 q4
  · intro s hs
    obtain ⟨q, hq, rfl⟩ := List.mem_map.1 hs
    obtain ⟨s, hs, _⟩ := entry_span he hq
    rw [entrySpan_eq he hq hs]
    exact entry_ok he hq hs
  · intro s c1 c2 c3 c4 c5
    obtain ⟨q, hq, hr⟩ := entry_complete he c1 c2 c3 c4 c5
    exact List.mem_map.2 ⟨q, hq, entrySpan_eq he hq hr⟩

/-! ### The theorem -/

theorem sum_ite (l : List Span) (g : Span → Nat) (q : Span → Bool) :
    (l.map fun s => g s + if q s then 1 else 0).sum = (l.map g).sum + (l.filter q).length := by
  induction l with
  | nil => rfl
  | cons s l ih =>
    simp only [List.map_cons, List.sum_cons, ih]
    by_cases h : q s
    · rw [List.filter_cons_of_pos h, if_pos h, List.length_cons]; omega
    · rw [List.filter_cons_of_neg h, if_neg h]; omega

theorem sum_cover (f : Span → Bool) (M : List Span) (hM : M.Nodup) (B : List (List Span)) (hσ : ∀ σ ∈ B, σ.Nodup)
    (hB : ∀ σ ∈ B, ∀ s ∈ σ, s ∈ M) (hc : ∀ σ ∈ B, σ.countP f = 1) :
    ((M.filter f).map fun s => B.countP fun σ => decide (s ∈ σ)).sum = B.length := by
  induction B with
  | nil => induction (M.filter f) with
    | nil => rfl
    | cons s l ih => simpa using ih
  | cons σ B ih =>
    have := ih (fun σ h => hσ σ (.tail _ h)) (fun σ h => hB σ (.tail _ h)) (fun σ h => hc σ (.tail _ h))
    simp only [List.countP_cons]
    rw [sum_ite (M.filter f) (fun s => B.countP fun σ => decide (s ∈ σ)) (fun s => decide (s ∈ σ)), this, List.length_cons]
    have hp : ((M.filter f).filter fun s => decide (s ∈ σ)).Perm (σ.filter f) := by
      refine (List.perm_ext_iff_of_nodup ((hM.sublist List.filter_sublist).sublist List.filter_sublist)
        ((hσ σ (.head _)).sublist List.filter_sublist)).2 fun s => ?_
      simp only [List.mem_filter, decide_eq_true_eq]
      exact ⟨fun h => ⟨h.2, h.1.2⟩, fun h => ⟨⟨hB σ (.head _) s h.1, h.2⟩, h.1⟩⟩
    rw [hp.length_eq, ← List.countP_eq_length_filter, hc σ (.head _)]

theorem mapM_trg (t : List String) (a n : Nat) (ha : 1 ≤ a) (h : a - 1 + n ≤ t.length) :
    (List.range' a n).mapM (fun j => t[j - 1]?) = some ((t.drop (a - 1)).take n) := by
  have := mapM_range' t n (a - 1) h
  rw [← this]
  obtain ⟨b, rfl⟩ : ∃ b, a = b + 1 := ⟨a - 1, by omega⟩
  rw [List.range'_succ_left, List.mapM_map]
  rfl

/-- C155: for a sentence pair of at most 100 words on each side (with a source sentence that is not empty), let `L` be the pairs of
segments that the ordinary extraction gives (C74, C75) and `B` the bilingual segmentations of the sentence pair with pairs of
`L`.  The segmentation-based extraction returns the number of elements of `B` and, once for each pair of segments that some element
of `B` uses, the phrase pair of these segments with the fraction of the elements of `B` that use it. -/
theorem C155_segmentation_weights_partial (p : Pars) (ns t : List String) (A : Mat) (h2 : 2 ≤ ns.length)
    (hn : ns.length - 1 ≤ 100) (ht : t.length ≤ 100) (hI : A.I = ns.length - 1) (hJ : A.J = t.length) :
    ∃ L : List Span, L.Nodup ∧ extract p ns t A = some (L.map (phraseOf ns t A)) ∧
      (∀ s ∈ L, Consistent A s ∧ Within p A s ∧ (p.monotone = true → MonoOk A s)) ∧
      (∀ s, Consistent A s → Within p A s → (p.monotone = true → MonoOk A s) → OneSided A s →
        (s.y1 = 1 → s.y2 = A.J → s.x1 = 1 ∧ s.x2 = A.I) → s ∈ L) ∧
      ∃ B : List (List Span), B.Nodup ∧ (∀ σ, σ ∈ B ↔ IsBisegm L (ns.length - 1) t.length σ) ∧
        ∃ M : List Span, M.Nodup ∧ (∀ s, s ∈ M ↔ ∃ σ ∈ B, s ∈ σ) ∧
          segmBased p ns t A = some (B.length, M.map fun s => weighted ns t (B.countP fun σ => decide (s ∈ σ)) B.length s) ∧
          (∀ i, 1 ≤ i → i ≤ ns.length - 1 → ((M.filter (inSrc i)).map fun s => B.countP fun σ => decide (s ∈ σ)).sum = B.length) ∧
          (∀ j, 1 ≤ j → j ≤ t.length → ((M.filter (inTrg j)).map fun s => B.countP fun σ => decide (s ∈ σ)).sum = B.length) := by
  obtain ⟨l1, l2, l3, l4⟩ := spans_extract p ns t A h2 (by omega) ht hI hJ
  refine ⟨_, l1, l2, l3, l4, ?_⟩
  obtain ⟨hd, hk⟩ := bpSet_keys ⟨ns.length, t.length, A, p⟩
  have hne : ns ≠ [] := by intro e; subst e; simp at h2
  have hsb : segmBased p ns t A = (obtainPhrPairs ns t (srfDp (obtainBpSet ⟨ns.length, t.length, A, p⟩ (fillTable ⟨ns.length, t.length, A, p⟩))
        (ns.length - 1) t.length).c
      (srfDp (obtainBpSet ⟨ns.length, t.length, A, p⟩ (fillTable ⟨ns.length, t.length, A, p⟩))
        (ns.length - 1) t.length).n).map
      fun out => ((srfDp (obtainBpSet ⟨ns.length, t.length, A, p⟩ (fillTable ⟨ns.length, t.length, A, p⟩))
        (ns.length - 1) t.length).n, out) := by
    unfold segmBased
    rw [if_neg]
    simp only [maxSentLen, hne, false_or]
    omega
  rw [hsb]
  generalize obtainBpSet ⟨ns.length, t.length, A, p⟩ (fillTable ⟨ns.length, t.length, A, p⟩) = bp at hd hk ⊢
  generalize spans ⟨ns.length, t.length, A, p⟩ = L at hk l1 l2 l3 l4 ⊢
  have hin : Inside bp (ns.length - 1) t.length := by
    intro s hs
    obtain ⟨⟨c1, c2, c3, c4, c5, c6, _⟩, _⟩ := l3 s ((hk s).1 hs)
    omega
  have hr := srfDp_right bp hn t.length
  generalize srfDp bp (ns.length - 1) t.length = D at hr ⊢
  have hmem : ∀ σ, σ ∈ segs bp (ns.length - 1) 1 (fullCov t.length) ↔ IsBisegm L (ns.length - 1) t.length σ := by
    intro σ
    rw [mem_segs hin ht σ 1 _ (by omega)]
    unfold IsBisegm
    constructor
    · rintro ⟨g1, g2, g3⟩
      refine ⟨fun s hs => (hk s).1 (g1 s hs), g2, fun j hj hj' => ?_⟩
      rw [g3 j (by omega), fullCov_eq, test_suf (by omega), if_pos (by simp; omega)]
    · rintro ⟨g1, g2, g3⟩
      refine ⟨fun s hs => (hk s).2 (g1 s hs), g2, fun j hj => ?_⟩
      rw [fullCov_eq, test_suf (by omega)]
      by_cases q : 1 ≤ j ∧ j ≤ t.length
      · rw [if_pos (by simpa using q), g3 j q.1 q.2]
      · rw [if_neg (by simpa using q), List.countP_eq_zero]
        intro s hs hj
        have := hin s ((hk s).2 (g1 s hs))
        simp only [inTrg, Bool.and_eq_true, decide_eq_true_eq] at hj
        omega
  have hnd := nodup_segs hd (ns.length - 1) _ 1 (fullCov t.length) (by omega) rfl
  generalize segs bp (ns.length - 1) 1 (fullCov t.length) = B at hr hmem hnd
  have hkeys : ∀ σ ∈ B, ∀ s ∈ σ, s ∈ bp.map Prod.fst := fun σ hσ s hs => (hk s).2 (((hmem σ).1 hσ).1 s hs)
  have hσ : ∀ σ ∈ B, σ.Nodup := fun σ h => chain_nodup hin σ 1 ((hmem σ).1 h).2.1 (hkeys σ h)
  have hocc := fun u => (hr.cnt u).trans (occ_eq_countP hσ u)
  have hM : ∀ s, s ∈ D.c.map Prod.fst ↔ ∃ σ ∈ B, s ∈ σ := by
    intro s
    rw [keys_pos hr.dist hr.pos, hocc, List.countP_pos_iff]
    simp
  have hin1 : ∀ e ∈ D.c, 1 ≤ e.1.x1 ∧ 1 ≤ e.1.x2 := by
    intro e he
    obtain ⟨σ, h1, h2⟩ := (hM e.1).1 (List.mem_map.2 ⟨e, he, rfl⟩)
    have := hin _ (hkeys σ h1 _ h2)
    omega
  have hMnd : ((inOrder D.c 1).map Prod.fst).Nodup := by
    apply nodup_map' _ _ (nodup_inOrder hr.dist 1)
    intro e he e' he' h
    have g1 := (lk_some_iff hr.dist (k := e.1) (v := e.2)).2 (mem_inOrder.1 he).1
    have g2 := (lk_some_iff hr.dist (k := e'.1) (v := e'.2)).2 (mem_inOrder.1 he').1
    rw [h, g2] at g1
    obtain ⟨a, b⟩ := e
    obtain ⟨a', b'⟩ := e'
    simp only at h g1
    cases g1
    rw [h]
  have hMm : ∀ s, s ∈ (inOrder D.c 1).map Prod.fst ↔ ∃ σ ∈ B, s ∈ σ := by
    intro s
    rw [← hM s]
    constructor
    · intro h
      obtain ⟨e, he, rfl⟩ := List.mem_map.1 h
      exact List.mem_map.2 ⟨e, (mem_inOrder.1 he).1, rfl⟩
    · intro h
      obtain ⟨e, he, rfl⟩ := List.mem_map.1 h
      exact List.mem_map.2 ⟨e, mem_inOrder.2 ⟨he, hin1 e he⟩, rfl⟩
  refine ⟨B, hnd, hmem, (inOrder D.c 1).map Prod.fst, hMnd, hMm, ?_, ?_, ?_⟩
  · have hp : obtainPhrPairs ns t D.c D.n = some ((inOrder D.c 1).map fun e => weighted ns t (B.countP fun σ => decide (e.1 ∈ σ)) B.length e.1) := by
      apply mapM_some
      intro e he
      obtain ⟨he, _⟩ := mem_inOrder.1 he
      obtain ⟨σ, h1, h2⟩ := (hM e.1).1 (List.mem_map.2 ⟨e, he, rfl⟩)
      have hb := hin _ (hkeys σ h1 _ h2)
      have hv : e.2 = B.countP fun σ => decide (e.1 ∈ σ) := by
        rw [← hocc]
        unfold val
        rw [(lk_some_iff hr.dist (k := e.1) (v := e.2)).2 he]
        rfl
      unfold mkPair
      rw [mapM_range' ns _ _ (by omega), mapM_trg t _ _ hb.2.2.2.1 (by omega)]
      simp only [weighted, hr.num, hv]
    rw [hp, Option.map_some, hr.num, List.map_map]
    rfl
  · intro i hi hi'
    refine sum_cover _ _ hMnd B hσ (fun σ h s hs => (hMm s).2 ⟨σ, h, hs⟩) fun σ h => ?_
    rw [chain_cov hin σ 1 ((hmem σ).1 h).2.1 (hkeys σ h) i, if_pos ⟨hi, hi'⟩]
  · intro j hj hj'
    refine sum_cover _ _ hMnd B hσ (fun σ h s hs => (hMm s).2 ⟨σ, h, hs⟩) fun σ h => ?_
    exact ((hmem σ).1 h).2.2 j hj hj'

/-- The statement without limits on the lengths. -/
def C155_full : Prop :=
  ∀ (p : Pars) (ns t : List String) (A : Mat), 2 ≤ ns.length → A.I = ns.length - 1 → A.J = t.length →
    ∃ L : List Span, L.Nodup ∧ extract p ns t A = some (L.map (phraseOf ns t A)) ∧
      ∃ B : List (List Span), B.Nodup ∧ (∀ σ, σ ∈ B ↔ IsBisegm L (ns.length - 1) t.length σ) ∧
        ∃ out, segmBased p ns t A = some (B.length, out)

/-- With a target sentence of 101 words nothing is extracted, and the number of segmentations returned is one (its logarithm is
zero). -/
theorem C155_counterexample : ¬ C155_full := by
  intro h
  obtain ⟨L, _, h1, B, _, h2, out, h3⟩ := h ⟨4, true, true, false⟩ ["NULL", "a"] (List.replicate 101 "x") ⟨1, 101, fun _ _ => 1⟩
    (by decide) rfl (by rw [List.length_replicate])
  unfold extract at h1
  rw [if_pos (by rw [List.length_replicate]; exact .inl (Nat.le_refl _))] at h1
  unfold segmBased at h3
  rw [if_pos (by rw [List.length_replicate]; exact .inl (Nat.le_refl _))] at h3
  have hL : L = [] := by simpa using h1.symm
  subst hL
  have hB : B = [] := by
    apply List.eq_nil_iff_forall_not_mem.2
    intro σ hσ
    obtain ⟨g1, g2, _⟩ := (h2 σ).1 hσ
    cases σ with
    | nil => cases g2
    | cons s σ => have := g1 s (.head _); cases this
  subst hB
  simp at h3

/-! A case: source `a b`, target `x y`, links `a`-`x`, `b`-`y`; the two segmentations are `a`-`x` followed by `b`-`y`, and the whole
sentence pair. -/

example : segmBased ⟨4, true, true, false⟩ ["NULL", "a", "b"] ["x", "y"] ⟨2, 2, fun i j => if i = j then 1 else 0⟩ =
    some (2, [⟨["a"], ["x"], 1, 2⟩, ⟨["a", "b"], ["x", "y"], 1, 2⟩, ⟨["b"], ["y"], 1, 2⟩]) := by decide +kernel

/-- Source `a b c`, target `x y z`, crossing links `a`-`y`, `b`-`x`, `c`-`z`: three segmentations, the pair `c`-`z` is in two of them. -/
example : segmBased ⟨4, true, true, false⟩ ["NULL", "a", "b", "c"] ["x", "y", "z"]
      ⟨3, 3, fun i j => if (i = 0 ∧ j = 1) ∨ (i = 1 ∧ j = 0) ∨ (i = 2 ∧ j = 2) then 1 else 0⟩ =
    some (3, [⟨["a"], ["y"], 1, 3⟩, ⟨["a", "b"], ["x", "y"], 1, 3⟩, ⟨["a", "b", "c"], ["x", "y", "z"], 1, 3⟩, ⟨["b"], ["x"], 1, 3⟩,
      ⟨["c"], ["z"], 2, 3⟩]) := by decide +kernel

end Thot.Srf
