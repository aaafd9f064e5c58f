import Verif.Search.Progress

/-!
Property C84: translation with a reference and verification of the coverage of a reference.
-/
namespace Thot.Search
open Thot.StrProc (Str)
open Thot.Meta (MD Segm Meet words cutBefore)

theorem insertAll_mem (sc : List Str → Int) : ∀ (os : List (List Str)) (t : List (Int × List Str)) (e : Int × List Str),
    e ∈ insertAll sc os t ↔ (e.2 ∈ os ∧ e.1 = sc e.2) ∨ e ∈ t
  | [], t, e => by simp [insertAll]
  | o :: os, t, e => by
    rw [insertAll, insertAll_mem sc os, MMap.mem_ins]
    constructor
    · rintro (⟨h1, h2⟩ | rfl | h)
      · exact Or.inl ⟨by simp [h1], h2⟩
      · exact Or.inl ⟨by simp, rfl⟩
      · exact Or.inr h
    · rintro (⟨h1, h2⟩ | h)
      · rcases List.mem_cons.1 h1 with h1 | h1
        · exact Or.inr (Or.inl (Prod.ext (by rw [h2, h1]) h1))
        · exact Or.inl ⟨h1, h2⟩
      · exact Or.inr (Or.inr h)

theorem prune_sub (W : Prune) (t : List (Int × List Str)) : ∀ e ∈ prune W t, e ∈ t := by
  intro e he
  cases W with
  | best n => exact List.mem_of_mem_take he
  | thr x =>
    cases t with
    | nil => simp [prune] at he
    | cons b t =>
      simp only [prune] at he
      exact (List.takeWhile_sublist _).subset he

theorem initials_mem (ws t : List Str) : t ∈ initials ws ↔ ∃ k, k < ws.length ∧ t = ws.take (k + 1) := by
  simp only [initials, List.mem_map, List.mem_range]
  exact ⟨fun ⟨k, h1, h2⟩ => ⟨k, h1, h2.symm⟩, fun ⟨k, h1, h2⟩ => ⟨k, h1, h2.symm⟩⟩

/-! ### The number of gaps -/

/-- Position `j` is the first one of a gap. -/
def gapStart (cov : Nat → Bool) (j : Nat) : Bool := !cov j && (decide (j = 1) || cov (j - 1))

theorem numGapsLoop_count (cov : Nat → Bool) : ∀ (m j : Nat) (b : Bool) (res : Nat), 1 ≤ j →
    (b = true ↔ (j ≠ 1 ∧ cov (j - 1) = false)) →
    numGapsLoop cov m j b res = res + b.toNat + (List.range' j m).countP (gapStart cov)
  | 0, j, b, res, _, _ => by cases b <;> simp [numGapsLoop]
  | m + 1, j, b, res, hj, hb => by
    rw [List.range'_succ, List.countP_cons]
    unfold numGapsLoop
    cases hc : cov j with
    | true =>
      have ih := numGapsLoop_count cov m (j + 1) false
      have hs : gapStart cov j = false := by simp [gapStart, hc]
      cases b with
      | true => simp only [Bool.true_eq_false, false_and, if_false, true_and, if_true, hs]
                rw [ih (res + 1) (by omega) (by simp [hc])]; simp
      | false => simp only [hs]
                 simp
                 rw [ih res (by omega) (by simp [hc])]; simp
    | false =>
      have ih := numGapsLoop_count cov m (j + 1) true
      cases b with
      | true =>
        have hs : gapStart cov j = false := by
          have := hb.1 rfl
          simp [gapStart, hc, this]
        simp only [hs]
        simp
        rw [ih res (by omega) (by simp [hc]; omega)]; simp
      | false =>
        have hs : gapStart cov j = true := by
          simp only [gapStart, hc, Bool.not_false, Bool.true_and, Bool.or_eq_true, decide_eq_true_eq]
          rcases Nat.lt_or_ge 1 j with h | h
          · right
            cases hcc : cov (j - 1) with
            | true => rfl
            | false => exact absurd (hb.2 ⟨by omega, hcc⟩) (by simp)
          · left; omega
        simp only [hs]
        simp
        rw [ih res (by omega) (by simp [hc]; omega)]; simp; omega

theorem numGaps_count (n : Nat) (cov : Nat → Bool) : numGaps n cov = (List.range' 1 n).countP (gapStart cov) := by
  rw [numGaps, numGapsLoop_count cov n 1 false 0 (by omega) (by simp)]
  simp

theorem countP_le_add_one {p q : Nat → Bool} (a : Nat) : ∀ (m s : Nat), (∀ x, p x = true → q x = true ∨ x = a) →
    (List.range' s m).countP p ≤ (List.range' s m).countP q + (if a < s then 0 else 1)
  | 0, s, _ => by simp
  | m + 1, s, h => by
    have ih := countP_le_add_one (p := p) (q := q) a m (s + 1) h
    rw [List.range'_succ, List.countP_cons, List.countP_cons]
    have hs := h s
    cases hp : p s with
    | false =>
      simp only [Bool.false_eq_true, if_false]
      by_cases h1 : a < s
      · rw [if_pos h1]; rw [if_pos (by omega)] at ih; omega
      · rw [if_neg h1]; split at ih <;> omega
    | true =>
      rcases hs hp with hq | he
      · simp only [hq, if_true]
        by_cases h1 : a < s
        · rw [if_pos h1]; rw [if_pos (by omega)] at ih; omega
        · rw [if_neg h1]; split at ih <;> omega
      · subst he
        simp only [if_true, Nat.lt_irrefl, if_false]
        rw [if_pos (by omega)] at ih
        split <;> omega

/-- Covering one segment adds at most one gap. -/
theorem numGaps_cover (n : Nat) (cov : Nat → Bool) (l r : Nat) :
    numGaps n (fun j => cov j || (decide (l ≤ j) && decide (j ≤ r))) ≤ numGaps n cov + 1 := by
  rw [numGaps_count, numGaps_count]
  have := countP_le_add_one (p := gapStart (fun j => cov j || (decide (l ≤ j) && decide (j ≤ r))))
    (q := gapStart cov) (r + 1) n 1 (by
      intro x hx
      simp only [gapStart, Bool.and_eq_true, Bool.not_eq_true', Bool.or_eq_false_iff, Bool.or_eq_true, decide_eq_true_eq,
        Bool.and_eq_false_iff, decide_eq_false_iff_not] at hx ⊢
      obtain ⟨⟨h1, h2⟩, h3⟩ := hx
      rcases h3 with h3 | h3 | h3
      · exact Or.inl ⟨h1, Or.inl h3⟩
      · exact Or.inl ⟨h1, Or.inr h3⟩
      · right; omega)
  split at this <;> omega

theorem covered_extend (d : HypData) (l r : Nat) (trg : List Str) :
    covered (extend d l r trg) = fun j => covered d j || (decide (l ≤ j) && decide (j ≤ r)) := by
  funext j
  simp [covered, extend, List.any_append]

theorem isComplete_extend {n : Nat} {d : HypData} {l r : Nat} {trg : List Str} (hw : WfHyp n (extend d l r trg))
    (hlr : l ≤ r) : isComplete n (extend d l r trg) = true ↔ uncovered n d = r + 1 - l := by
  have h := C81_no_underflow hw
  simp only [isComplete, uncovered, extend, List.map_append, List.sum_append, List.map_cons, List.map_nil, List.sum_cons,
    List.sum_nil, beq_iff_eq] at h ⊢
  omega

theorem numGaps_pos {n : Nat} {d : HypData} (hw : WfHyp n d) (h : isComplete n d = false) : 1 ≤ numGaps n (covered d) := by
  rw [C80_count]
  have hex : ∃ j, 1 ≤ j ∧ j ≤ n ∧ covered d j = false := by
    refine Classical.byContradiction fun hno => ?_
    have : isComplete n d = true := (isComplete_iff hw).2 fun j h1 h2 => by
      cases hcj : covered d j with
      | true => rfl
      | false => exact absurd ⟨j, h1, h2, hcj⟩ hno
    rw [this] at h; cases h
  obtain ⟨j, h1, h2, h3⟩ := hex
  obtain ⟨g, hg, _⟩ := C80_cover _ _ j h1 h2 h3
  exact List.length_pos_iff.2 (List.ne_nil_of_mem hg)

theorem prefix_extend {a b : List Str} (h : a <+: b) (k : Nat) : a ++ (b.drop a.length).take k = b.take (a.length + k) := by
  obtain ⟨c, rfl⟩ := h
  rw [List.take_append, List.take_of_length_le (by omega : a.length ≤ a.length + k)]
  simp

/-- What is kept along a translation with a reference. -/
structure RefInv (M : Model) (I : Input) (d : HypData) : Prop where
  pre : d.ntarget <+: nullWord :: I.ref
  done : isComplete I.src.length d = true → d.ntarget = nullWord :: I.ref
  room : isComplete I.src.length d = false →
    d.ntarget.length + (if M.U = 0 then 1 else numGaps I.src.length (covered d)) ≤ I.ref.length + 1

theorem RefInv.room1 {M : Model} {I : Input} {d : HypData} (h : RefInv M I d) (hw : WfHyp I.src.length d)
    (hc : isComplete I.src.length d = false) : d.ntarget.length + 1 ≤ I.ref.length + 1 := by
  have h1 := h.room hc
  have h2 := numGaps_pos hw hc
  split at h1 <;> omega

/-- The translations of a segment that is not the last one. -/
theorem refNoLast_mem {M : Model} {I : Input} {d : HypData} {l r : Nat} {ts : List (Int × List Str)}
    (h : transRefNoLastGap M I d l r = some ts) (hp : d.ntarget <+: nullWord :: I.ref) {t : Int × List Str} (ht : t ∈ ts) :
    t.2 ≠ [] ∧ d.ntarget ++ t.2 <+: nullWord :: I.ref ∧
      (d.ntarget ++ t.2).length + gapsAfter M I.src.length d l r ≤ I.ref.length + 1 := by
  unfold transRefNoLastGap at h
  dsimp only at h
  split at h
  · cases h
  · rename_i hng
    cases h
    have hm := (insertAll_mem _ _ _ _).1 (prune_sub _ _ _ ht)
    simp only [List.not_mem_nil, or_false, List.mem_filter] at hm
    obtain ⟨⟨h1, _⟩, _⟩ := hm
    obtain ⟨k, hk, hk'⟩ := (initials_mem _ _).1 h1
    simp only [List.length_drop, List.length_take, List.length_cons] at hk
    have hdl : d.ntarget.length ≤ I.ref.length + 1 := by
      have := hp.length_le; simpa using this
    have e : t.2 = ((nullWord :: I.ref).drop d.ntarget.length).take (k + 1) := by
      rw [hk', List.drop_take, List.take_take]
      congr 1; omega
    refine ⟨?_, ?_, ?_⟩
    · rw [e]; intro hnil
      have := congrArg List.length hnil
      simp only [List.length_take, List.length_drop, List.length_cons, List.length_nil] at this
      omega
    · rw [e, prefix_extend hp]; exact List.take_prefix _ _
    · rw [e, prefix_extend hp, List.length_take, List.length_cons]; omega

theorem refLast_mem {M : Model} {I : Input} {d : HypData} {l r : Nat} (hp : d.ntarget <+: nullWord :: I.ref)
    {t : Int × List Str} (ht : t ∈ transRefLastGap M I d l r) : d.ntarget ++ t.2 = nullWord :: I.ref := by
  unfold transRefLastGap at ht
  dsimp only at ht
  split at ht
  · simp only [List.mem_singleton] at ht
    subst ht
    obtain ⟨c, hc⟩ := hp
    rw [← hc]; simp
  · simp at ht

/-- One step of a translation with a reference. -/
theorem ref_step {M : Model} {I : Input} {d : HypData} (hw : WfHyp I.src.length d) (hi : RefInv M I d)
    (hc : isComplete I.src.length d = false) {l r : Nat} (h1 : 1 ≤ l) (hlr : l ≤ r) (hr : r ≤ I.src.length)
    (hu : ∀ j, l ≤ j → j ≤ r → covered d j = false) {ds : List HypData} (hd : hypDataRef M I d l r = some ds)
    {d' : HypData} (hm : d' ∈ ds) : RefInv M I d' ∧ ∃ trg, trg ≠ [] ∧ d' = extend d l r trg := by
  unfold hypDataRef at hd
  obtain ⟨ts, hts, rfl⟩ := Option.map_eq_some_iff.1 hd
  obtain ⟨hm1, hm2⟩ := List.mem_filter.1 hm
  obtain ⟨t, ht, rfl⟩ := List.mem_map.1 hm1
  have hw' : WfHyp I.src.length (extend d l r t.2) := wf_extend hw h1 hlr hr hu
  have hroom := hi.room1 hw hc
  unfold transRef at hts
  rw [if_neg (by omega)] at hts
  split at hts
  · rename_i hnl
    obtain ⟨a1, a2, a3⟩ := refNoLast_mem hts hi.pre ht
    have hnc : isComplete I.src.length (extend d l r t.2) = false := by
      cases hcc : isComplete I.src.length (extend d l r t.2) with
      | false => rfl
      | true => exact absurd ((isComplete_extend hw' hlr).1 hcc) hnl
    refine ⟨⟨a2, fun h => (by rw [hnc] at h; cases h), fun _ => ?_⟩, t.2, a1, rfl⟩
    unfold gapsAfter at a3
    rw [covered_extend]
    exact a3
  · rename_i hl
    cases hts
    have a := refLast_mem hi.pre ht
    refine ⟨⟨?_, fun _ => a, fun h => ?_⟩, t.2, ?_, rfl⟩
    · show d.ntarget ++ t.2 <+: _; rw [a]; exact List.prefix_rfl
    · rw [(isComplete_extend hw' hlr).2 (by simpa using hl)] at h; cases h
    · intro hnil
      rw [hnil, List.append_nil] at a
      rw [a] at hroom; simp at hroom; omega

theorem refInv_null {M : Model} {I : Input} (hs : I.src ≠ []) (hr : I.ref ≠ []) : RefInv M I nullData where
  pre := by simp [nullData]
  done := by
    intro h
    have := List.length_pos_iff.2 hs
    simp [isComplete, uncovered, nullData] at h
    exact absurd h hs
  room := by
    intro _
    have h1 := List.length_pos_iff.2 hr
    have h2 := List.length_pos_iff.2 hs
    have h3 : numGaps I.src.length (covered nullData) ≤ 1 := by
      rw [numGaps_count]
      obtain ⟨m, hm⟩ : ∃ m, I.src.length = m + 1 := ⟨I.src.length - 1, by omega⟩
      rw [hm, List.range'_succ, List.countP_cons]
      have : (List.range' 2 m).countP (gapStart (covered nullData)) = 0 := by
        rw [List.countP_eq_zero]
        intro j hj
        rw [List.mem_range'_1] at hj
        simp [gapStart, covered, nullData]
        omega
      show List.countP _ (List.range' 2 m) + _ ≤ 1
      rw [this]; split <;> omega
    have h4 : nullData.ntarget.length = 1 := rfl
    rw [h4]
    split <;> omega

theorem mapM_isSome {α β : Type} (f : α → Option β) : ∀ (l : List α), (∀ a ∈ l, (f a).isSome = true) → (l.mapM f).isSome = true
  | [], _ => rfl
  | x :: l, h => by
    have h1 := h x (by simp)
    have h2 := mapM_isSome f l fun a ha => h a (by simp [ha])
    rw [List.mapM_cons]
    cases hx : f x with
    | none => rw [hx] at h1; cases h1
    | some y =>
      cases hl : l.mapM f with
      | none => rw [hl] at h2; cases h2
      | some ys => rfl

theorem step_incomplete {m : Mode} {M : Model} {I : Input} {h h' : Hyp} {hs : List Hyp} (hr : Reach m M I h)
    (he : expandMode m M I h = some hs) (hm : h' ∈ hs) : isComplete I.src.length h.data = false := by
  have := uncovered_step hr he hm
  simp only [isComplete, beq_eq_false_iff_ne]
  omega

theorem reach_ref {M : Model} {I : Input} (hs : I.src ≠ []) (href : I.ref ≠ []) {h : Hyp} (hr : Reach .ref M I h) :
    RefInv M I h.data ∧ ∀ k, k < h.data.srcSegm.length → cutBefore h.data.cuts k < h.data.cuts.getD k 0 := by
  induction hr with
  | null => exact ⟨refInv_null hs href, by simp [nullData]⟩
  | step hr he hm ih =>
    obtain ⟨l, r, trg, hd, hg, h1, h2, h3, hu, _⟩ := step_spec he hm
    obtain ⟨ds, hds, hmem⟩ := hg
    have hw := C81_wf hr
    obtain ⟨hi, trg', ht', hd'⟩ := ref_step hw ih.1 (step_incomplete hr he hm) h1 h2 h3 hu hds hmem
    refine ⟨hi, fun k hk => ?_⟩
    rw [hd'] at hk ⊢
    have hpos : 1 ≤ trg'.length := List.length_pos_iff.2 ht'
    simp only [extend, List.length_append, List.length_cons, List.length_nil] at hk ⊢
    rcases Nat.lt_or_ge k (Hyp.data _).srcSegm.length with hlt | hge
    · have := ih.2 k hlt
      rw [cutBefore_append _ _ _ (by rw [hw.len]; omega), List.getD_eq_getElem?_getD,
        List.getElem?_append_left (by rw [hw.len]; exact hlt), ← List.getD_eq_getElem?_getD]
      exact this
    · have hk' : k = (Hyp.data _).srcSegm.length := Nat.le_antisymm (by omega) hge
      rw [hk', ← hw.len, cutBefore_append _ _ _ (Nat.le_refl _), cutBefore_length hw]
      have hn := congrArg List.length (ntarget_cons hw)
      simp only [List.length_cons] at hn
      simp
      omega

/-- Translation with a non-empty reference never reads outside the reference (the unsigned subtraction of the number of
gaps does not underflow). -/
theorem C84_safe {M : Model} {I : Input} (hs : I.src ≠ []) (href : I.ref ≠ []) {h : Hyp} (hr : Reach .ref M I h) :
    ∃ hs, expandMode .ref M I h = some hs := by
  obtain ⟨hi, _⟩ := reach_ref hs href hr
  have hw := C81_wf hr
  simp only [expandMode, expandWith]
  have key := mapM_isSome (fun s : Segm => hypDataRef M I h.data s.1 s.2)
    (segmsToTry M (fun _ => false) (extractGaps I.src.length (covered h.data))) (by
      intro s hsm
      obtain ⟨g, hg, a1, a2, a3, _⟩ := (mem_segmsToTry _ _ _ _).1 hsm
      have hgap := (C80_gaps _ _ _).1 hg
      have hc : isComplete I.src.length h.data = false := by
        cases hcc : isComplete I.src.length h.data with
        | false => rfl
        | true =>
          have := (isComplete_iff hw).1 hcc g.1 hgap.first (by have := hgap.order; have := hgap.last; omega)
          rw [hgap.free g.1 (Nat.le_refl _) hgap.order] at this; cases this
      have hroom := hi.room hc
      have hpos : 1 ≤ h.data.ntarget.length := by rw [ntarget_cons hw]; simp
      have hng : gapsAfter M I.src.length h.data s.1 s.2 ≤ I.ref.length + 1 := by
        unfold gapsAfter
        split
        · omega
        · rename_i hU
          rw [if_neg hU] at hroom
          have := numGaps_cover I.src.length (covered h.data) s.1 s.2
          omega
      unfold hypDataRef transRef transRefNoLastGap
      dsimp only
      rw [if_neg (by omega : ¬ gapsAfter M I.src.length h.data s.1 s.2 > I.ref.length + 1)]
      split
      · rfl
      · split <;> rfl)
  obtain ⟨dss, hd⟩ := Option.isSome_iff_exists.1 key
  rw [hd]
  exact ⟨_, rfl⟩

/-- In a translation with a non-empty reference, the words of every hypothesis are a prefix of the reference, those of a
complete one are the reference, and every segment is aligned with at least one word of the reference. -/
theorem C84_ref {M : Model} {I : Input} (hs : I.src ≠ []) (href : I.ref ≠ []) {h : Hyp} (hr : Reach .ref M I h) :
    h.data.ntarget.tail <+: I.ref ∧ (isComplete I.src.length h.data = true → h.data.ntarget.tail = I.ref) ∧
      (∀ k, k < h.data.srcSegm.length → cutBefore h.data.cuts k < h.data.cuts.getD k 0) ∧
      textTrs I h.data = h.data.ntarget.tail := by
  obtain ⟨hi, hcut⟩ := reach_ref hs href hr
  have hn := ntarget_cons (C81_wf hr)
  have hp : h.data.ntarget.tail <+: I.ref := by
    have := hi.pre
    rw [hn, List.cons_prefix_cons] at this
    exact this.2
  refine ⟨hp, fun hc => ?_, hcut, ?_⟩
  · have := hi.done hc
    rw [hn] at this; simpa using this
  · apply List.ext_getElem?
    intro i
    simp only [textTrs, List.getElem?_mapIdx]
    cases hx : h.data.ntarget.tail[i]? with
    | none => rfl
    | some x =>
      obtain ⟨c, hc⟩ := hp
      have hi : i < h.data.ntarget.tail.length := (List.getElem?_eq_some_iff.1 hx).1
      have : I.ref[i]? = some x := by rw [← hc, List.getElem?_append_left hi, hx]
      simp [List.getD_eq_getElem?_getD, this]

/-- While checking the coverage of a reference, too, every hypothesis is a prefix of the reference and a complete one is
the whole of it. -/
theorem C84_ver {M : Model} {I : Input} (hs : I.src ≠ []) {h : Hyp} (hr : Reach .ver M I h) :
    h.data.ntarget.tail <+: I.ref ∧ (isComplete I.src.length h.data = true → h.data.ntarget.tail = I.ref) := by
  have hw := C81_wf hr
  cases hr with
  | null =>
    refine ⟨by simp [nullData], fun hc => ?_⟩
    simp [isComplete, uncovered, nullData] at hc
    exact absurd hc hs
  | step hr' he hm =>
    obtain ⟨l, r, trg, hd, hg, h1, h2, h3, hu, _⟩ := step_spec he hm
    have ht := (List.mem_filter.1 hg).2
    have hn := ntarget_cons hw
    unfold refTest at ht
    split at ht
    · cases ht
    · rename_i eq heq
      unfold isPrefixOfRef at heq
      split at heq
      · cases heq
      · rename_i hlen
        split at heq
        · rename_i hall
          cases heq
          have hp : h.data.ntarget.tail <+: I.ref := by
            rw [List.prefix_iff_eq_take]
            apply List.ext_getElem?
            intro i
            rw [List.getElem?_take]
            split
            · rename_i hi
              rw [List.length_tail] at hi
              have := List.all_eq_true.1 hall i (by simpa using hi)
              simp only [beq_iff_eq, List.getElem?_cons_succ] at this
              rw [this, List.getElem?_tail]
            · rename_i hi
              rw [List.getElem?_eq_none (by omega)]
          refine ⟨hp, fun hc => ?_⟩
          rw [hc] at ht
          simp at ht
          have := hp.eq_of_length (by
            rw [List.length_tail]; omega)
          exact this
        · cases heq

/-- The claim for an empty reference. -/
def C84_full : Prop := ∀ (M : Model) (I : Input), I.src ≠ [] → ∃ hs, expandMode .ref M I ⟨M.nullScore, nullData⟩ = some hs

/-- With an empty reference the number of gaps exceeds the size of the reference (with its null word) and the loop reads
past its end; `translateWithRef` returns before for empty references (_stackDecoder.h:426-433). -/
theorem C84_counterexample : ¬ C84_full := by
  intro h
  obtain ⟨hs, he⟩ := h exModel { exInput with src := ["a".toList, "b".toList, "a".toList], ref := [] } (by decide)
  have : expandMode .ref exModel { exInput with src := ["a".toList, "b".toList, "a".toList], ref := [] }
    ⟨exModel.nullScore, nullData⟩ = none := by decide +kernel
  rw [this] at he; cases he

-- A complete translation with a reference.
example : ∃ h, Reach .ref exModel exInput h ∧ isComplete exInput.src.length h.data = true := by
  refine ⟨⟨-5, extend (extend nullData 1 1 ["x".toList]) 2 2 ["y".toList]⟩, ?_, by decide +kernel⟩
  refine .step (h := ⟨-2, extend nullData 1 1 ["x".toList]⟩)
    (hs := [⟨-5, extend (extend nullData 1 1 ["x".toList]) 2 2 ["y".toList]⟩]) ?_ (by decide +kernel) (by decide)
  exact .step (hs := [⟨-2, extend nullData 1 1 ["x".toList]⟩, ⟨-3, extend nullData 1 2 ["x".toList, "y".toList]⟩,
    ⟨-2, extend nullData 2 2 ["x".toList]⟩]) .null (by decide +kernel) (by decide)

end Thot.Search
