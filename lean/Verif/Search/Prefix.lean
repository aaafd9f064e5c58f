import Verif.Search.Exhaust
import Verif.StrProc.Props

/-!
Property C87: translation with a prefix produces translations that begin with the prefix (whose last word may be only the
beginning of a word), and is never stuck when there are no constraints.
-/
namespace Thot.Search
open Thot.StrProc (Str)
open Thot.Meta (MD Segm Meet words cutBefore)

/-! ### Specification -/

/-- `text` begins with the words of `pref`; the last of them may be completed unless a blank follows it. -/
def Begins (pref : List Str) (blank : Bool) (text : List Str) : Prop :=
  ∃ init l x r, pref = init ++ [l] ∧ text = init ++ (l ++ x) :: r ∧ (blank = true → x = [])

/-! ### The comparison with the prefix -/

theorem isPrefixLoop_begins (blank : Bool) (last : Str) : ∀ (init v2 : List Str), (init ++ [last]).length ≤ v2.length →
    isPrefixLoop blank last (init ++ [last]) v2 = true → Begins (init ++ [last]) blank v2
  | [], b :: bs, _, h => by
    simp only [List.nil_append, isPrefixLoop] at h
    by_cases hab : last = b
    · subst hab
      exact ⟨[], last, [], bs, rfl, by simp, fun _ => rfl⟩
    · rw [if_pos hab] at h
      cases blank with
      | true => simp at h
      | false =>
        simp only [List.length_nil, and_self, if_true] at h
        split at h
        · rename_i hp
          obtain ⟨x, hx⟩ := (StrProc.C16_isPrefix _ _).1 hp
          exact ⟨[], last, x, bs, rfl, by simp [hx], fun h => by cases h⟩
        · cases h
  | a :: init, b :: bs, hl, h => by
    simp only [List.cons_append, isPrefixLoop] at h
    by_cases hab : a = b
    · subst hab
      rw [if_neg (by simp)] at h
      obtain ⟨i, l, x, r, h1, h2, h3⟩ := isPrefixLoop_begins blank last init bs (by simpa using hl) h
      exact ⟨a :: i, l, x, r, by simp [h1], by simp [h2], h3⟩
    · rw [if_pos hab, if_neg (by simp)] at h
      cases h
  | [], [], hl, _ => by simp at hl
  | _ :: _, [], hl, _ => by simp at hl

theorem Begins.append {pref text : List Str} {blank : Bool} (h : Begins pref blank text) (t : List Str) :
    Begins pref blank (text ++ t) := by
  obtain ⟨i, l, x, r, h1, h2, h3⟩ := h
  exact ⟨i, l, x, r ++ t, h1, by simp [h2], h3⟩

theorem Begins.prepend {pref text : List Str} {blank : Bool} (h : Begins pref blank text) (t : List Str) :
    Begins (t ++ pref) blank (t ++ text) := by
  obtain ⟨i, l, x, r, h1, h2, h3⟩ := h
  exact ⟨t ++ i, l, x, r, by simp [h1], by simp [h2], h3⟩

theorem Begins.length {pref text : List Str} {blank : Bool} (h : Begins pref blank text) : pref.length ≤ text.length := by
  obtain ⟨i, l, x, r, h1, h2, _⟩ := h
  rw [h1, h2]; simp

/-- What is kept along a translation with a prefix. -/
structure PrefInv (I : Input) (d : HypData) : Prop where
  pre : d.ntarget.tail <+: I.pref ∧ d.ntarget.tail.length < I.pref.length ∨ Begins I.pref I.prefBlank d.ntarget.tail
  done : isComplete I.src.length d = true → Begins I.pref I.prefBlank d.ntarget.tail

theorem drop_cons_pref {pref T : List Str} : (nullWord :: pref).drop (T.length + 1) = pref.drop T.length := rfl

/-- The translations of a segment before the prefix has been generated. -/
theorem transPrefNoGen_mem {M : Model} {I : Input} {d : HypData} {T : List Str} (hd : d.ntarget = nullWord :: T)
    (hp : T <+: I.pref) (hlt : T.length < I.pref.length) {l r : Nat} {t : Int × List Str}
    (ht : t ∈ transPrefNoGen M I d l r) :
    Begins I.pref I.prefBlank (T ++ t.2) ∨
      (uncovered I.src.length d ≠ r + 1 - l ∧ T ++ t.2 <+: I.pref ∧ (T ++ t.2).length < I.pref.length) := by
  obtain ⟨rem, hrem⟩ := hp
  have hremne : rem ≠ [] := by
    intro h
    rw [h] at hrem
    have := congrArg List.length hrem
    simp at this; omega
  have hR : remPref I d = rem := by
    unfold remPref
    rw [hd, List.length_cons, drop_cons_pref, ← hrem]
    simp
  obtain ⟨init, last, hil⟩ : ∃ init last, rem = init ++ [last] := by
    rcases List.eq_nil_or_concat rem with h | ⟨i, l, h⟩
    · exact absurd h hremne
    · exact ⟨i, l, by rw [h, List.concat_eq_append]⟩
  have hlast : I.pref.getLastD [] = last := by
    rw [← hrem, hil, ← List.append_assoc]
    simp [List.getLastD_eq_getLast?]
  unfold transPrefNoGen at ht
  dsimp only at ht
  rw [insertAll_mem] at ht
  simp only [List.not_mem_nil, or_false, List.mem_append, List.mem_singleton] at ht
  obtain ⟨(h1 | h1) | h1, _⟩ := ht
  · -- a longer translation
    left
    unfold longerThanPref at h1
    rw [hR, hlast] at h1
    obtain ⟨_, h1⟩ := List.mem_filter.1 h1
    simp only [Bool.and_eq_true] at h1
    obtain ⟨h2, h3⟩ := h1
    have hw : wordVecIsPrefix rem I.prefBlank last t.2 = some false := by
      split at h3
      · assumption
      · cases h3
    unfold wordVecIsPrefix at hw
    split at hw
    · cases hw
    · rename_i hlen
      split at hw
      · rename_i hloop
        rw [hil] at hloop hlen
        have := (isPrefixLoop_begins _ _ _ _ (by omega) hloop).prepend T
        rw [← hil, hrem] at this
        exact this
      · cases hw
  · -- a shorter one
    split at h1
    · rename_i hun
      split at h1
      · right
        obtain ⟨k, hk, hk'⟩ := (initials_mem _ _).1 (List.mem_filter.1 h1).1
        have hws : ((nullWord :: I.pref).take I.pref.length).drop d.ntarget.length = init := by
          rw [hd, List.length_cons, ← hrem, hil]
          rw [show (T ++ (init ++ [last])).length = (T ++ init).length + 1 by simp; omega, List.take_succ_cons]
          simp [List.take_append, Nat.add_sub_cancel_left]
        rw [hws] at hk hk'
        refine ⟨hun, ?_, ?_⟩
        · rw [hk', ← hrem, hil]
          refine List.prefix_append_right_inj _ |>.2 ?_
          exact (List.take_prefix _ _).trans (List.prefix_append _ _)
        · rw [hk', ← hrem, hil]
          simp
          omega
      · simp at h1
    · simp at h1
  · left
    rw [h1, hR, hrem]
    refine ⟨T ++ init, last, [], [], by rw [← hrem, hil]; simp, by rw [← hrem, hil]; simp, fun _ => rfl⟩

theorem reach_pref {M : Model} {I : Input} (hs : I.src ≠ []) (hp : I.pref ≠ []) {h : Hyp} (hr : Reach .pref M I h) :
    PrefInv I h.data := by
  induction hr with
  | null =>
    refine ⟨Or.inl ⟨by simp [nullData], by simpa [nullData] using List.length_pos_iff.2 hp⟩, fun hc => ?_⟩
    simp [isComplete, uncovered, nullData] at hc
    exact absurd hc hs
  | @step h h' hs' hr he hm ih =>
    obtain ⟨l, r, trg, hd, hg, h1, h2, h3, hu, _⟩ := step_spec he hm
    have hw := C81_wf hr
    have hw' := C81_wf (hr.step he hm)
    have hn := ntarget_cons hw
    obtain ⟨t, ht, hd'⟩ := List.mem_map.1 hg
    have htail : h'.data.ntarget.tail = h.data.ntarget.tail ++ t.2 := by
      rw [← hd']
      simp only [extend]
      rw [hn]; rfl
    have hbeg : Begins I.pref I.prefBlank h.data.ntarget.tail →
        PrefInv I h'.data := fun hb => by
      have := hb.append t.2
      rw [← htail] at this
      exact ⟨Or.inr this, fun _ => this⟩
    rcases ih.pre with ⟨p1, p2⟩ | hb
    · unfold transPref at ht
      have hlt : h.data.ntarget.length < I.pref.length + 1 := by rw [hn]; simpa using p2
      rw [if_pos hlt] at ht
      rcases transPrefNoGen_mem hn p1 p2 (prune_sub _ _ _ ht) with hb | ⟨q1, q2, q3⟩
      · rw [← htail] at hb
        exact ⟨Or.inr hb, fun _ => hb⟩
      · refine ⟨Or.inl (by rw [htail]; exact ⟨q2, q3⟩), fun hc => ?_⟩
        exfalso
        -- not the last gap
        have e1 := C81_no_underflow hw
        have e2 := C81_no_underflow hw'
        have e3 : (h'.data.srcSegm.map fun s => s.2 + 1 - s.1).sum =
            (h.data.srcSegm.map fun s => s.2 + 1 - s.1).sum + (r + 1 - l) := by
          rw [hd]; simp [extend]
        simp only [isComplete, uncovered, beq_iff_eq] at hc
        simp only [uncovered] at q1
        omega
    · exact hbeg hb

/-! ### The text -/

theorem text_getElem? (I : Input) (d : HypData) (i : Nat) : (textTps I d)[i]? = (d.ntarget.tail[i]?).map fun w =>
    if w = unkWord then (match I.pref[i]? with | some p => p | none => replaceUnk I.src d i w) else w := by
  unfold textTps
  rw [List.getElem?_mapIdx]
  cases d.ntarget.tail[i]? with
  | none => rfl
  | some w => cases hp : I.pref[i]? <;> simp [hp]

theorem text_begins {I : Input} {d : HypData} (h : Begins I.pref I.prefBlank d.ntarget.tail) :
    Begins I.pref I.prefBlank (textTps I d) := by
  obtain ⟨init, l, x, r, h1, h2, h3⟩ := h
  have hlen : (textTps I d).length = d.ntarget.tail.length := by simp [textTps]
  -- words inside the prefix
  have hin : ∀ i, i < init.length → (textTps I d)[i]? = init[i]? := by
    intro i hi
    rw [text_getElem?, h2, h1, List.getElem?_append_left hi, List.getElem?_append_left hi]
    rw [List.getElem?_eq_getElem hi]
    simp
  have hat : ∃ x', (I.prefBlank = true → x' = []) ∧ (textTps I d)[init.length]? = some (l ++ x') := by
    rw [text_getElem?, h2, h1]
    simp only [List.getElem?_append_right (Nat.le_refl _), Nat.sub_self, List.getElem?_cons_zero, Option.map_some]
    split
    · exact ⟨[], fun _ => rfl, by simp⟩
    · exact ⟨x, h3, rfl⟩
  obtain ⟨x', hx', hat⟩ := hat
  refine ⟨init, l, x', (textTps I d).drop (init.length + 1), h1, ?_, hx'⟩
  apply List.ext_getElem?
  intro i
  rcases Nat.lt_trichotomy i init.length with hi | hi | hi
  · rw [hin i hi, List.getElem?_append_left hi]
  · subst hi
    rw [hat]; simp
  · rw [List.getElem?_append_right (by omega)]
    obtain ⟨k, hk⟩ : ∃ k, i - init.length = k + 1 := ⟨i - init.length - 1, by omega⟩
    rw [hk, List.getElem?_cons_succ, List.getElem?_drop]
    congr 1
    omega

theorem text_prefix {I : Input} {d : HypData} (h : d.ntarget.tail <+: I.pref) : textTps I d = d.ntarget.tail := by
  apply List.ext_getElem?
  intro i
  rw [text_getElem?]
  cases hx : d.ntarget.tail[i]? with
  | none => rfl
  | some w =>
    have hp : I.pref[i]? = some w := by
      obtain ⟨c, hc⟩ := h
      have hi := (List.getElem?_eq_some_iff.1 hx).1
      rw [← hc, List.getElem?_append_left hi, hx]
    rw [hp]
    simp

/-! ### C87 -/

/-- Translation with a prefix: the text of every hypothesis is the beginning of the prefix or begins with the prefix, and the
text of a complete one begins with the prefix. -/
theorem C87_prefix {M : Model} {I : Input} (hs : I.src ≠ []) (hp : I.pref ≠ []) {h : Hyp} (hr : Reach .pref M I h) :
    (textTps I h.data <+: I.pref ∨ Begins I.pref I.prefBlank (textTps I h.data)) ∧
      (isComplete I.src.length h.data = true → Begins I.pref I.prefBlank (textTps I h.data)) := by
  have hi := reach_pref hs hp hr
  refine ⟨?_, fun hc => text_begins (hi.done hc)⟩
  rcases hi.pre with ⟨h1, _⟩ | h1
  · left; rw [text_prefix h1]; exact h1
  · exact Or.inr (text_begins h1)

/-- Without constraints left by earlier translations, every incomplete hypothesis can be extended. -/
theorem C87_progress_partial {M : Model} {I : Input} (hmd : I.md.srcPhrTransMap = []) (hA : 1 ≤ M.A) (hW : WOk M.W)
    {h : Hyp} (hr : Reach .pref M I h) (hc : isComplete I.src.length h.data = false) :
    ∃ hs, expandMode .pref M I h = some hs ∧ hs ≠ [] := by
  have hw := C81_wf hr
  obtain ⟨hs, he⟩ : ∃ hs, expandMode .pref M I h = some hs := by
    simp only [expandMode, expandWith]
    obtain ⟨dss, hd⟩ := Option.isSome_iff_exists.1 (mapM_isSome (fun s : Segm => some (hypDataPref M I h.data s.1 s.2))
      (segmsToTry M (fun _ => false) (extractGaps I.src.length (covered h.data))) (fun s _ => rfl))
    rw [hd]
    exact ⟨_, rfl⟩
  refine ⟨hs, he, ?_⟩
  have hex : ∃ j, 1 ≤ j ∧ j ≤ I.src.length ∧ covered h.data j = false := by
    refine Classical.byContradiction fun hno => ?_
    have : isComplete I.src.length h.data = true := (isComplete_iff hw).2 fun j h1 h2 => by
      cases hcj : covered h.data j with
      | true => rfl
      | false => exact absurd ⟨j, h1, h2, hcj⟩ hno
    rw [this] at hc; cases hc
  obtain ⟨j, hj1, hj2, hj3⟩ := hex
  obtain ⟨g, hg, _, _⟩ := C80_cover _ _ j hj1 hj2 hj3
  have hgap := (C80_gaps _ _ _).1 hg
  have g1 := hgap.first; have g2 := hgap.order; have g3 := hgap.last
  have hne : transPref M I h.data g.1 g.1 ≠ [] := by
    unfold transPref
    split
    · refine prune_ne hW fun hnil => ?_
      have : (M.phrScore (srcPhrase I.src g.1 g.1) (remPref I h.data), remPref I h.data) ∈ transPrefNoGen M I h.data g.1 g.1 := by
        unfold transPrefNoGen
        dsimp only
        rw [insertAll_mem]
        left
        simp
      rw [hnil] at this; cases this
    · unfold transForGap
      have haff : Meta.srcPhrAffectedByConstraint I.md (g.1, g.1) = false := by
        simp [Meta.srcPhrAffectedByConstraint, hmd]
      rw [haff, if_neg (by simp)]
      by_cases hu : (unseenWords M I.src).contains (I.src.getD (g.1 - 1) []) = true
      · rw [if_pos ⟨rfl, hu⟩]; simp
      · rw [if_neg (fun h => hu h.2), srcPhrase_words g1]
        exact nbestTrans_ne hW fun hno => hu ((unseen_iff g1 (by omega)).2 hno)
  obtain ⟨t, ht⟩ := List.exists_mem_of_ne_nil _ hne
  refine List.ne_nil_of_mem (a := incrScore M h (extend h.data g.1 g.1 t.2)) ?_
  rw [expandMode_mem _ _ _ _ _ he]
  refine ⟨(g.1, g.1), (mem_segmsToTry _ _ _ _).2 ⟨g, hg, Nat.le_refl _, Nat.le_refl _, g2, by simp, fun y hy hy' => ?_⟩,
    List.mem_map.2 ⟨t, ht, rfl⟩, rfl⟩
  left; dsimp only at hy hy' ⊢; omega

/-- Hence there is a complete translation beginning with any prefix. -/
theorem C87_exists_partial {M : Model} {I : Input} (hs : I.src ≠ []) (hp : I.pref ≠ []) (hmd : I.md.srcPhrTransMap = [])
    (hA : 1 ≤ M.A) (hW : WOk M.W) :
    ∃ h, Reach .pref M I h ∧ isComplete I.src.length h.data = true ∧ Begins I.pref I.prefBlank (textTps I h.data) := by
  have key : ∀ (n : Nat) (h : Hyp), Reach .pref M I h → uncovered I.src.length h.data = n →
      ∃ h', Reach .pref M I h' ∧ isComplete I.src.length h'.data = true := by
    intro n
    induction n using Nat.strongRecOn with
    | _ n ih =>
      intro h hr hn
      cases hc : isComplete I.src.length h.data with
      | true => exact ⟨h, hr, hc⟩
      | false =>
        obtain ⟨hs, he, hne⟩ := C87_progress_partial hmd hA hW hr hc
        obtain ⟨x, hx⟩ := List.exists_mem_of_ne_nil _ hne
        have := uncovered_step hr he hx
        exact ih _ (by omega) x (hr.step he hx) rfl
  obtain ⟨h, h1, h2⟩ := key _ _ .null rfl
  exact ⟨h, h1, h2, (C87_prefix hs hp h1).2 h2⟩

/-- The claims for constraints left by the last call to `translate`, which are never cleared. -/
def C87_full : Prop := ∀ (M : Model) (I : Input), I.src ≠ [] → I.pref ≠ [] → (∃ raw, Meta.obtainTransConstraints raw = some I.md) →
  1 ≤ M.A → WOk M.W → ∃ h, Reach .pref M I h ∧ isComplete I.src.length h.data = true

/-- A sentence of two words translated with the prefix `x` after an annotated sentence whose first two words are constrained;
phrases have one word. -/
def exPInput : Input where
  src := ["a".toList, "b".toList, "a".toList]
  md := ⟨["a".toList, "b".toList], [((1, 2), ["k".toList])]⟩
  pref := ["x".toList]

def exPModel : Model := { exModel with A := 1 }

/-- The hypotheses after at most `k` expansions. -/
def exPReach : Nat → List Hyp
  | 0 => [⟨exPModel.nullScore, nullData⟩]
  | k + 1 => exPReach k ++ (exPReach k).flatMap fun h => (expandMode .pref exPModel exPInput h).getD []

/-- The first two words of the sentence can never be translated. -/
theorem C87_counterexample : ¬ C87_full := by
  intro H
  obtain ⟨h, hr, hc⟩ := H exPModel exPInput (by decide) (by decide)
    ⟨"<phr_pair_annot> <src_segm> a b </src_segm> <trg_segm> k </trg_segm> </phr_pair_annot>".toList, by decide +kernel⟩
    (by decide) (by show 1 ≤ 10; decide)
  have key : h ∈ exPReach 3 := by
    clear hc
    induction hr with
    | null => decide +kernel
    | @step a b hs _ he hm ih =>
      have hcl : ∀ x ∈ exPReach 3, ∀ y ∈ (expandMode .pref exPModel exPInput x).getD [], y ∈ exPReach 3 := by decide +kernel
      exact hcl a ih b (by rw [he]; exact hm)
  have : ∀ x ∈ exPReach 3, isComplete exPInput.src.length x.data = false := by decide +kernel
  rw [this h key] at hc
  cases hc

/-- A translation of `a b` completing the prefix `x y` is reachable. -/
example : ∃ h, Reach .pref exModel { exInput with pref := ["x".toList, "y".toList] } h ∧
    isComplete 2 h.data = true ∧ textTps { exInput with pref := ["x".toList, "y".toList] } h.data =
      ["x".toList, "y".toList, "z".toList] := by
  refine ⟨⟨-6, extend (extend nullData 1 1 ["x".toList]) 2 2 ["y".toList, "z".toList]⟩, ?_, by decide +kernel, by decide +kernel⟩
  refine .step (h := ⟨-2, extend nullData 1 1 ["x".toList]⟩) (.step .null
      (hs := (expandMode .pref exModel { exInput with pref := ["x".toList, "y".toList] } ⟨0, nullData⟩).getD [])
      (by decide +kernel) (by decide +kernel))
    (hs := (expandMode .pref exModel { exInput with pref := ["x".toList, "y".toList] } ⟨-2, extend nullData 1 1 ["x".toList]⟩).getD [])
    (by decide +kernel) (by decide +kernel)

end Thot.Search
