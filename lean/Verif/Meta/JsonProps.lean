import Verif.Meta.Json
import Verif.Meta.Props
/-! C212, C213: constraints given in JSON format. -/
namespace Thot.Meta
open Thot.StrProc (Str stringToStringVector)

/-! ## Specification -/

/-- Position `s` (counted from 0) is the first occurrence of the words `p` in the sentence at or after `b`. -/
def FirstAt (w : List Str) (b : Nat) (p : List Str) (s : Nat) : Prop :=
  b ≤ s ∧ p <+: w.drop s ∧ ∀ s', b ≤ s' → s' < s → ¬ p <+: w.drop s'

/-- The phrases occur one after another, without sharing words, at the given positions. -/
def InOrder (w : List Str) : Nat → List (List Str) → List Nat → Prop
  | _, [], [] => True
  | b, p :: ps, s :: ss => b ≤ s ∧ p <+: w.drop s ∧ InOrder w (s + p.length) ps ss
  | _, _, _ => False

/-- The same, each phrase at its first occurrence after the previous one. -/
def FirstInOrder (w : List Str) : Nat → List (List Str) → List Nat → Prop
  | _, [], [] => True
  | b, p :: ps, s :: ss => FirstAt w b p s ∧ FirstInOrder w (s + p.length) ps ss
  | _, _, _ => False

/-- The constraints for pairs found at the given positions. -/
def constraintsAt (tps : List (List Str × List Str)) (ss : List Nat) : List (Segm × List Str) :=
  (tps.zip ss).map fun x => ((x.2 + 1, x.2 + x.1.1.length), x.1.2)

/-- A phrase whose last word is missing at the end of the sentence: its other words end the sentence. -/
def Dangling (w p : List Str) : Prop := 2 ≤ p.length ∧ p.dropLast <:+ w

/-! ## Finding a phrase -/

theorem matchAt_spec (w : List Str) (p : List Str) (s : Nat) (h : s + p.length ≤ w.length) :
    ∃ b, matchAt w s p = some b ∧ (b = true ↔ p <+: w.drop s) := by
  induction p generalizing s with
  | nil => exact ⟨true, rfl, by simp⟩
  | cons x xs ih =>
    simp only [List.length_cons] at h
    have hs : s < w.length := by omega
    rw [matchAt, List.getElem?_eq_getElem hs]
    have hd : w.drop s = w[s] :: w.drop (s + 1) := List.drop_eq_getElem_cons hs
    rw [hd]
    by_cases he : w[s] = x
    · obtain ⟨b, h1, h2⟩ := ih (s + 1) (by omega)
      refine ⟨b, by simp only [he, ne_eq, not_true_eq_false, if_false, h1], ?_⟩
      rw [h2, List.cons_prefix_cons]
      simp [he]
    · refine ⟨false, by simp only [he, ne_eq, not_false_eq_true, if_true], ?_⟩
      rw [List.cons_prefix_cons]
      simp [Ne.symm he]

/-- Whatever is answered is right; out of bounds is read only for dangling phrases. -/
theorem isPhrase_spec (w p : List Str) (s : Nat) (hp : p ≠ []) (hs : s < w.length) :
    (∀ b, isPhraseInSentence w p s = some b → (b = true ↔ p <+: w.drop s)) ∧
    (isPhraseInSentence w p s = none → Dangling w p) := by
  have hl : p.length ≠ 0 := by
    cases p with
    | nil => exact absurd rfl hp
    | cons => simp
  unfold isPhraseInSentence
  rw [if_neg hl]
  by_cases h1 : s + p.length - 1 > w.length
  · rw [if_pos h1]
    refine ⟨?_, by intro h; cases h⟩
    intro b hb
    injection hb with hb
    subst hb
    simp only [Bool.false_eq_true, false_iff]
    intro hpre
    have := hpre.length_le
    rw [List.length_drop] at this
    omega
  · rw [if_neg h1]
    by_cases h2 : s + p.length ≤ w.length
    · obtain ⟨b, hb, hi⟩ := matchAt_spec w p s h2
      rw [hb]
      exact ⟨fun b' h => by injection h with h; subst h; exact hi, by intro h; cases h⟩
    · -- the phrase would end one word after the sentence
      have h3 : s + p.length = w.length + 1 := by omega
      have key : ∀ (q : List Str) (t : Nat), t + q.length = w.length + 1 → q ≠ [] → t ≤ w.length →
          (matchAt w t q = none ∧ q.dropLast = w.drop t) ∨ (matchAt w t q = some false) := by
        intro q
        induction q with
        | nil => intro t _ h; exact absurd rfl h
        | cons x xs ih =>
          intro t ht _ htl
          simp only [List.length_cons] at ht
          rw [matchAt]
          by_cases hx : xs = []
          · subst hx
            have : t = w.length := by simpa using ht
            subst this
            left
            rw [List.getElem?_eq_none (Nat.le_refl _)]
            exact ⟨rfl, by simp⟩
          · have hxl : xs.length ≠ 0 := by
              intro h0; exact hx (List.length_eq_zero_iff.1 h0)
            have htw : t < w.length := by omega
            rw [List.getElem?_eq_getElem htw]
            by_cases he : w[t] = x
            · simp only [he, ne_eq, not_true_eq_false, if_false]
              rcases ih (t + 1) (by omega) hx (by omega) with ⟨h4, h5⟩ | h4
              · left
                refine ⟨h4, ?_⟩
                rw [List.drop_eq_getElem_cons htw, ← h5, he]
                cases xs with
                | nil => exact absurd rfl hx
                | cons a as => rfl
              · right; exact h4
            · right; simp only [he, ne_eq, not_false_eq_true, if_true]
      rcases key p s h3 hp (by omega) with ⟨h4, h5⟩ | h4
      · rw [h4]
        refine ⟨by intro b h; (cases h), fun _ => ⟨by omega, ?_⟩⟩
        rw [h5]
        exact List.drop_suffix s w
      · rw [h4]
        refine ⟨?_, by intro h; cases h⟩
        intro b hb
        injection hb with hb
        subst hb
        simp only [Bool.false_eq_true, false_iff]
        intro hpre
        have := hpre.length_le
        rw [List.length_drop] at this
        omega

/-! ## The greedy search -/

/-- The keys stored so far end before `s`. -/
def Before (m : List (Segm × List Str)) (s : Nat) : Prop := ∀ e ∈ m, e.1.1 ≤ s

theorem put_fresh (m : List (Segm × List Str)) (k : Segm) (v : List Str) (s : Nat) (hb : Before m s) (hk : s < k.1) :
    AMap.put m k v = m ++ [(k, v)] := by
  refine put_new ?_
  intro e he hc
  have := hb e he
  rw [hc] at this
  omega

theorem addLoop_spec (w : List Str) (n : Nat) : ∀ (s : Nat) (tps : List (List Str × List Str))
    (m : List (Segm × List Str)), (w.length - s) + tps.length = n → (∀ p ∈ tps, p.1 ≠ []) → Before m s →
    (addLoop w s tps m = .oob ∧ ∃ p ∈ tps, Dangling w p.1) ∨
    ∃ k ss, k ≤ tps.length ∧ addLoop w s tps m = .ok (m ++ constraintsAt (tps.take k) ss) ∧
      FirstInOrder w s ((tps.take k).map (·.1)) ss ∧
      (∀ k' ss', k' ≤ tps.length → InOrder w s ((tps.take k').map (·.1)) ss' → k' ≤ k) := by
  induction n using Nat.strongRecOn with
  | _ n ih =>
    intro s tps m hn hne hb
    cases tps with
    | nil =>
      right
      refine ⟨0, [], Nat.le_refl _, ?_, trivial, ?_⟩
      · rw [addLoop]; simp [constraintsAt]
      · intro k' _ h _; exact h
    | cons tp rest =>
      by_cases hs : s < w.length
      · obtain ⟨hsome, hnone⟩ := isPhrase_spec w tp.1 s (hne tp List.mem_cons_self) hs
        have hpl : tp.1.length ≠ 0 := by
          intro h0; exact hne tp List.mem_cons_self (List.length_eq_zero_iff.1 h0)
        rw [addLoop, if_pos hs]
        cases hq : isPhraseInSentence w tp.1 s with
        | none => exact .inl ⟨rfl, tp, List.mem_cons_self, hnone hq⟩
        | some b =>
          cases b with
          | true =>
            have hat : tp.1 <+: w.drop s := (hsome true hq).1 rfl
            have hput := put_fresh m (s + 1, s + tp.1.length) tp.2 s hb (Nat.lt_succ_self s)
            simp only
            rw [hput]
            have hb' : Before (m ++ [((s + 1, s + tp.1.length), tp.2)]) (s + tp.1.length) := by
              intro e he
              rcases List.mem_append.1 he with he | he
              · exact Nat.le_trans (hb e he) (by omega)
              · rw [List.mem_singleton.1 he]
                show s + 1 ≤ s + tp.1.length
                omega
            rcases ih ((w.length - (s + tp.1.length)) + rest.length) (by simp only [List.length_cons] at hn; omega)
              (s + tp.1.length) rest _ rfl (fun p hp => hne p (List.mem_cons_of_mem _ hp)) hb' with ⟨h1, p, hp, hd⟩ | ⟨k, ss, hk, h1, h2, h3⟩
            · exact .inl ⟨h1, p, List.mem_cons_of_mem _ hp, hd⟩
            · right
              refine ⟨k + 1, s :: ss, by simp only [List.length_cons]; omega, ?_, ?_, ?_⟩
              · rw [h1]
                simp [constraintsAt, List.append_assoc]
              · refine ⟨⟨Nat.le_refl _, hat, fun s' h4 h5 => by omega⟩, h2⟩
              · intro k' ss' hk' ho
                cases k' with
                | zero => omega
                | succ k'' =>
                  simp only [List.length_cons] at hk'
                  have hrest : ∃ ss'', InOrder w (s + tp.1.length) ((rest.take k'').map (·.1)) ss'' := by
                    simp only [List.take_succ_cons, List.map_cons] at ho
                    cases ss' with
                    | nil => exact ho.elim
                    | cons t ts =>
                      obtain ⟨h6, _, h8⟩ := ho
                      -- positions after a later end are also after an earlier one
                      have mono : ∀ (ps : List (List Str)) (b b' : Nat) (l : List Nat), b ≤ b' →
                          InOrder w b' ps l → InOrder w b ps l := by
                        intro ps b b' l hbb hh
                        cases ps with
                        | nil => cases l with
                          | nil => trivial
                          | cons => exact hh.elim
                        | cons q qs => cases l with
                          | nil => exact hh.elim
                          | cons y ys => exact ⟨Nat.le_trans hbb hh.1, hh.2.1, hh.2.2⟩
                      exact ⟨ts, mono _ _ _ ts (by omega) h8⟩
                  obtain ⟨ss'', h9⟩ := hrest
                  have := h3 k'' ss'' (by omega) h9
                  omega
          | false =>
            have hnat : ¬ tp.1 <+: w.drop s := by
              intro hc; have := (hsome false hq).2 hc; cases this
            simp only
            rcases ih ((w.length - (s + 1)) + (tp :: rest).length) (by simp only [List.length_cons] at hn ⊢; omega)
              (s + 1) (tp :: rest) m rfl hne (fun e he => Nat.le_succ_of_le (hb e he)) with h1 | ⟨k, ss, hk, h1, h2, h3⟩
            · exact .inl h1
            · right
              refine ⟨k, ss, hk, h1, ?_, ?_⟩
              · cases k with
                | zero =>
                  cases ss with
                  | nil => trivial
                  | cons => exact h2.elim
                | succ k =>
                  simp only [List.take_succ_cons, List.map_cons] at h2 ⊢
                  cases ss with
                  | nil => exact h2.elim
                  | cons t ts =>
                    obtain ⟨⟨h4, h5, h6⟩, h7⟩ := h2
                    refine ⟨⟨by omega, h5, ?_⟩, h7⟩
                    intro s' h8 h9
                    by_cases hss : s' = s
                    · rw [hss]; exact hnat
                    · exact h6 s' (by omega) h9
              · intro k' ss' hk' ho
                refine h3 k' ss' hk' ?_
                cases k' with
                | zero =>
                  cases ss' with
                  | nil => trivial
                  | cons => exact ho.elim
                | succ k' =>
                  simp only [List.take_succ_cons, List.map_cons] at ho ⊢
                  cases ss' with
                  | nil => exact ho.elim
                  | cons t ts =>
                    obtain ⟨h4, h5, h6⟩ := ho
                    refine ⟨?_, h5, h6⟩
                    by_cases hts : t = s
                    · rw [hts] at h5; exact absurd h5 hnat
                    · omega
      · right
        refine ⟨0, [], Nat.zero_le _, ?_, trivial, ?_⟩
        · rw [addLoop, if_neg hs]; simp [constraintsAt]
        · intro k' ss' _ ho
          cases k' with
          | zero => exact Nat.le_refl _
          | succ k' =>
            simp only [List.take_succ_cons, List.map_cons] at ho
            cases ss' with
            | nil => exact ho.elim
            | cons t ts =>
              obtain ⟨h4, h5, _⟩ := ho
              have := h5.length_le
              have hpl : tp.1.length ≠ 0 := by
                intro h0; exact hne tp List.mem_cons_self (List.length_eq_zero_iff.1 h0)
              rw [List.length_drop] at this
              omega

/-! ## C212 -/

theorem onlyWs_iff (p : Str) : containsOnlyWhitespaces p = true ↔ stringToStringVector p = [] := by
  obtain ⟨h1, h2⟩ := StrProc.C15_token_facts p
  unfold containsOnlyWhitespaces
  constructor
  · intro h
    have hf : p.filter (fun c => c != ' ' && c != '\t') = [] := by
      rw [List.filter_eq_nil_iff]
      intro c hc
      have := List.all_eq_true.1 h c hc
      simpa [Decidable.or_iff_not_imp_left] using this
    rw [hf] at h2
    cases hw : stringToStringVector p with
    | nil => rfl
    | cons x xs =>
      rw [hw] at h1 h2
      exact absurd (List.append_eq_nil_iff.1 h2).1 (h1 x List.mem_cons_self).1
  · intro h
    rw [h] at h2
    have hf : p.filter (fun c => c != ' ' && c != '\t') = [] := h2.symm
    rw [List.filter_eq_nil_iff] at hf
    rw [List.all_eq_true]
    intro c hc
    have := hf c hc
    simpa [Decidable.or_iff_not_imp_left] using this

/-- A tag: an object with the two strings. -/
def IsTag (j : Json) (p : Str × Str) : Prop :=
  ∃ m, j = .obj m ∧ AMap.lk m "original".toList = some (.str p.1) ∧ AMap.lk m "translation".toList = some (.str p.2)

/-- A list of tags. -/
def AreTags : List Json → List (Str × Str) → Prop
  | [], [] => True
  | j :: js, p :: ps => IsTag j p ∧ AreTags js ps
  | _, _ => False

/-- A JSON object with a sentence and tags (and possibly other data). -/
structure Doc (m : List (Str × Json)) (sent : Str) (tags : List (Str × Str)) : Prop where
  title : ∃ t, AMap.lk m "src_title".toList = some (.obj t) ∧ AMap.lk t "preprocessed".toList = some (.str sent)
  tags : ∃ js, AMap.lk m "tex_segmentation".toList = some (.arr js) ∧ AreTags js tags

/-- The words of the tags, without the tags that have no words on one side. -/
def usable (tags : List (Str × Str)) : List (List Str × List Str) :=
  (tags.map fun p => (stringToStringVector p.1, stringToStringVector p.2)).filter
    fun p => !p.1.isEmpty && !p.2.isEmpty

theorem tagPairs_eq (js : List Json) (tags : List (Str × Str)) (h : AreTags js tags) :
    ∃ ps, tagPairs js = some ps ∧
      (ps.map fun p => (stringToStringVector p.1, stringToStringVector p.2)) = usable tags := by
  induction js generalizing tags with
  | nil =>
    cases tags with
    | nil => exact ⟨[], rfl, rfl⟩
    | cons => exact h.elim
  | cons j js ih =>
    cases tags with
    | nil => exact h.elim
    | cons p tags =>
      obtain ⟨⟨m, rfl, ho, ht⟩, hr⟩ := h
      obtain ⟨ps, h1, h2⟩ := ih tags hr
      have hp : tagPair (.obj m) =
          some (if !containsOnlyWhitespaces p.1 && !containsOnlyWhitespaces p.2 then some (p.1, p.2) else none) := by
        unfold tagPair
        have e1 : (Json.obj m).get kTranslation = some (.str p.2) := by
          show some ((AMap.lk m "translation".toList).getD .null) = _
          rw [ht]; rfl
        have e2 : (Json.obj m).get kOriginal = some (.str p.1) := by
          show some ((AMap.lk m "original".toList).getD .null) = _
          rw [ho]; rfl
        rw [e1, e2]
      have hc : (!containsOnlyWhitespaces p.1 && !containsOnlyWhitespaces p.2) =
          (!(stringToStringVector p.1).isEmpty && !(stringToStringVector p.2).isEmpty) := by
        have e : ∀ q : Str, containsOnlyWhitespaces q = (stringToStringVector q).isEmpty := by
          intro q
          rw [Bool.eq_iff_iff, onlyWs_iff, List.isEmpty_iff]
        rw [e, e]
      rw [hc] at hp
      have e3 : tagPairs (.obj m :: js) = some ((if (!(stringToStringVector p.1).isEmpty &&
          !(stringToStringVector p.2).isEmpty) = true then some (p.1, p.2) else none).toList ++ ps) := by
        rw [tagPairs, hp]; simp only [h1]
      refine ⟨_, e3, ?_⟩
      rw [List.map_append, h2]
      unfold usable
      rw [List.map_cons, List.filter_cons]
      cases hh : (!(stringToStringVector p.1).isEmpty && !(stringToStringVector p.2).isEmpty)
      · simp
      · simp

theorem usable_ne (tags : List (Str × Str)) : ∀ p ∈ usable tags, p.1 ≠ [] := by
  intro p hp hc
  have := (List.mem_filter.1 hp).2
  rw [hc] at this
  simp at this

theorem sentence_eq (m : List (Str × Json)) (sent : Str) (tags : List (Str × Str)) (h : Doc m sent tags) :
    jsonSentence m = stringToStringVector sent := by
  obtain ⟨t, h1, h2⟩ := h.title
  unfold jsonSentence
  have e1 : (Json.obj m).get kSrcTitle = some (.obj t) := by
    show some ((AMap.lk m "src_title".toList).getD .null) = _
    rw [h1]; rfl
  have e2 : (Json.obj t).get kPreprocessed = some (.str sent) := by
    show some ((AMap.lk t "preprocessed".toList).getD .null) = _
    rw [h2]; rfl
  rw [e1]
  simp only [e2]

theorem constraints_eq (m : List (Str × Json)) (sent : Str) (tags : List (Str × Str)) (h : Doc m sent tags)
    (w : List Str) : jsonConstraints m w = addLoop w 0 (usable tags) [] := by
  obtain ⟨js, h1, h2⟩ := h.tags
  obtain ⟨ps, h3, h4⟩ := tagPairs_eq js tags h2
  unfold jsonConstraints
  have e1 : (Json.obj m).get kSegm = some (.arr js) := by
    show some ((AMap.lk m "tex_segmentation".toList).getD .null) = _
    rw [h1]; rfl
  rw [e1]
  simp only [h3]
  cases ps with
  | nil =>
    rw [← h4]
    show Out.ok [] = _
    rw [List.map_nil, addLoop]
  | cons p ps => rw [← h4]; rfl

/-- What the constraints read from a document should be. -/
def Located (d : MD) (sent : Str) (tags : List (Str × Str)) : Prop :=
  d.srcSentVec = stringToStringVector sent ∧
  ∃ k ss, k ≤ (usable tags).length ∧
    d.srcPhrTransMap = constraintsAt ((usable tags).take k) ss ∧
    FirstInOrder (stringToStringVector sent) 0 (((usable tags).take k).map (·.1)) ss ∧
    ∀ k' ss', k' ≤ (usable tags).length →
      InOrder (stringToStringVector sent) 0 (((usable tags).take k').map (·.1)) ss' → k' ≤ k

/-- Full statement of C212: for every document the sentence is the given one, and the constraints are the longest run of
leading tags whose source phrases occur one after another in the sentence, each one at its first occurrence after
the previous one, with its translation. -/
def C212_full : Prop := ∀ (raw : Str) (m : List (Str × Json)) (sent : Str) (tags : List (Str × Str)), raw ≠ [] →
  Doc m sent tags → ∃ d, obtainTransConstraintsJson raw (some (.obj m)) = .ok d ∧ Located d sent tags

/-- **C212 (partial).** The full statement holds unless some tag has a source phrase whose words but the last one are the
last words of the sentence. Missing: such tags, for which the sentence is read past its end (counterexample). -/
theorem C212_json_constraints_partial (raw : Str) (m : List (Str × Json)) (sent : Str) (tags : List (Str × Str))
    (hr : raw ≠ []) (hd : Doc m sent tags) (hn : ∀ p ∈ tags, ¬ Dangling (stringToStringVector sent) (stringToStringVector p.1)) :
    ∃ d, obtainTransConstraintsJson raw (some (.obj m)) = .ok d ∧ Located d sent tags := by
  have hl : ¬ raw.length = 0 := fun h0 => hr (List.length_eq_zero_iff.1 h0)
  rcases addLoop_spec (stringToStringVector sent) _ 0 (usable tags) [] rfl (usable_ne tags)
    (by intro e he; cases he) with ⟨_, p, hp, hdg⟩ | ⟨k, ss, hk, h1, h2, h3⟩
  · obtain ⟨q, hq, rfl⟩ := List.mem_map.1 (List.mem_filter.1 hp).1
    exact absurd hdg (hn q hq)
  · refine ⟨⟨stringToStringVector sent, constraintsAt ((usable tags).take k) ss⟩, ?_, rfl, k, ss, hk, rfl, h2, h3⟩
    unfold obtainTransConstraintsJson
    rw [if_neg hl]
    simp only [sentence_eq m sent tags hd, constraints_eq m sent tags hd, h1, List.nil_append]

/-- A document. -/
def docOf (sent : Str) (tags : List (Str × Str)) : List (Str × Json) :=
  [("src_title".toList, .obj [("preprocessed".toList, .str sent)]),
   ("tex_segmentation".toList,
     .arr (tags.map fun p => .obj [("original".toList, .str p.1), ("translation".toList, .str p.2)]))]

theorem doc_docOf (sent : Str) (tags : List (Str × Str)) : Doc (docOf sent tags) sent tags := by
  refine ⟨⟨_, rfl, rfl⟩, ⟨_, rfl, ?_⟩⟩
  induction tags with
  | nil => trivial
  | cons p tags ih => exact ⟨⟨_, rfl, rfl, rfl⟩, ih⟩

/-- The hypotheses are met. -/
example : ∀ p ∈ [("b a".toList, "X".toList), ("a".toList, "Y Z".toList)],
    ¬ Dangling (stringToStringVector "a b a c a".toList) (stringToStringVector p.1) := by
  intro p hp
  simp only [List.mem_cons, List.not_mem_nil, or_false] at hp
  have h0 : stringToStringVector "a b a c a".toList = [['a'], ['b'], ['a'], ['c'], ['a']] :=
    StrProc.C15_roundtrip [['a'], ['b'], ['a'], ['c'], ['a']] (by decide)
  have h1 : stringToStringVector "b a".toList = [['b'], ['a']] := StrProc.C15_roundtrip [['b'], ['a']] (by decide)
  have h2 : stringToStringVector "a".toList = [['a']] := StrProc.C15_roundtrip [['a']] (by decide)
  rcases hp with rfl | rfl
  · rw [h0, h1]; rintro ⟨_, h⟩; revert h; decide
  · rw [h0, h2]; rintro ⟨h, _⟩; revert h; decide

/-- **C212 is false of the code**: sentence "a", tag "a b". -/
theorem C212_counterexample : ¬ C212_full := by
  intro h
  obtain ⟨d, hd, _⟩ := h ['x'] (docOf ['a'] [("a b".toList, ['X'])]) ['a'] [("a b".toList, ['X'])] (by decide)
    (doc_docOf _ _)
  have h0 : stringToStringVector ['a'] = [['a']] := StrProc.C15_roundtrip [['a']] (by decide)
  have h1 : stringToStringVector "a b".toList = [['a'], ['b']] := StrProc.C15_roundtrip [['a'], ['b']] (by decide)
  have h2 : stringToStringVector ['X'] = [['X']] := StrProc.C15_roundtrip [['X']] (by decide)
  have hu : usable [("a b".toList, ['X'])] = [([['a'], ['b']], [['X']])] := by
    unfold usable
    simp only [List.map_cons, List.map_nil, h1, h2]
    rfl
  have hloop : addLoop [['a']] 0 [([['a'], ['b']], [['X']])] [] = .oob := by
    rw [addLoop]
    rfl
  unfold obtainTransConstraintsJson at hd
  rw [if_neg (by decide)] at hd
  simp only [sentence_eq _ _ _ (doc_docOf _ _), constraints_eq _ _ _ (doc_docOf _ _), h0, hu, hloop] at hd
  cases hd

/-- **C212.** In particular every constraint read is right: the words of its segment are those of one of the tags, its
translation is the one of that tag, and the segments are within the sentence and follow one another. -/
theorem C212_sound (d : MD) (sent : Str) (tags : List (Str × Str)) (h : Located d sent tags) :
    (∀ e ∈ d.srcPhrTransMap, 1 ≤ e.1.1 ∧ e.1.1 ≤ e.1.2 ∧ e.1.2 ≤ d.srcSentVec.length ∧
      ∃ p ∈ tags, words d.srcSentVec (e.1.1 - 1) e.1.2 = stringToStringVector p.1 ∧ e.2 = stringToStringVector p.2) ∧
    d.srcPhrTransMap.Pairwise (fun a b => a.1.2 < b.1.1) := by
  obtain ⟨hs, k, ss, hk, hm, hf, _⟩ := h
  rw [hs, hm]
  have hmem : ∀ p ∈ (usable tags).take k, p ∈ usable tags := fun p hp => List.mem_of_mem_take hp
  generalize (usable tags).take k = l at hf hmem
  generalize stringToStringVector sent = w at hf
  have key : ∀ (l : List (List Str × List Str)) (b : Nat) (ss : List Nat), (∀ p ∈ l, p ∈ usable tags) →
      FirstInOrder w b (l.map (·.1)) ss →
      (∀ e ∈ constraintsAt l ss, b < e.1.1 ∧ e.1.1 ≤ e.1.2 ∧ e.1.2 ≤ w.length ∧
        ∃ p ∈ tags, words w (e.1.1 - 1) e.1.2 = stringToStringVector p.1 ∧ e.2 = stringToStringVector p.2) ∧
      (constraintsAt l ss).Pairwise (fun a b => a.1.2 < b.1.1) := by
    intro l
    induction l with
    | nil =>
      intro b ss _ hf
      refine ⟨?_, ?_⟩
      · intro e he; simp [constraintsAt] at he
      · simp [constraintsAt]
    | cons q l ih =>
      intro b ss hm hf
      cases ss with
      | nil => exact hf.elim
      | cons s ss =>
        obtain ⟨⟨h1, h2, _⟩, h4⟩ := hf
        obtain ⟨h5, h6⟩ := ih (s + q.1.length) ss (fun p hp => hm p (List.mem_cons_of_mem _ hp)) h4
        have hqu := hm q List.mem_cons_self
        have hqne : q.1.length ≠ 0 := by
          intro h0; exact usable_ne tags q hqu (List.length_eq_zero_iff.1 h0)
        have hle : q.1.length ≤ (w.drop s).length := h2.length_le
        rw [List.length_drop] at hle
        obtain ⟨p, hp, hpe⟩ := List.mem_map.1 (List.mem_filter.1 hqu).1
        have hcons : constraintsAt (q :: l) (s :: ss) =
            ((s + 1, s + q.1.length), q.2) :: constraintsAt l ss := by simp [constraintsAt]
        rw [hcons]
        refine ⟨?_, ?_⟩
        · intro e he
          rcases List.mem_cons.1 he with rfl | he
          · refine ⟨?_, ?_, ?_, p, hp, ?_, ?_⟩
            · show b < s + 1; omega
            · show s + 1 ≤ s + q.1.length; omega
            · show s + q.1.length ≤ w.length; omega
            · show words w (s + 1 - 1) (s + q.1.length) = _
              unfold words
              have e1 : s + q.1.length - (s + 1 - 1) = q.1.length := by omega
              rw [e1, Nat.add_sub_cancel, ← List.prefix_iff_eq_take.1 h2, ← hpe]
            · show q.2 = _; rw [← hpe]
          · obtain ⟨h7, h8, h9, h10⟩ := h5 e he
            exact ⟨by omega, h8, h9, h10⟩
        · refine List.pairwise_cons.2 ⟨?_, h6⟩
          intro e he
          exact (h5 e he).1
  obtain ⟨h1, h2⟩ := key l 0 ss hmem hf
  exact ⟨fun e he => ⟨(h1 e he).1, (h1 e he).2.1, (h1 e he).2.2.1, (h1 e he).2.2.2⟩, h2⟩

/-! ## C213 -/

/-- Full statement of C213: reading constraints never throws and never reads out of bounds. -/
def C213_full : Prop := ∀ (raw : Str) (parsed : Option Json), ∃ d, obtainTransConstraintsJson raw parsed = .ok d

/-- **C213.** A text that is not a JSON object is taken as the sentence itself, without constraints. -/
theorem C213_plain_text (raw : Str) (parsed : Option Json) (hp : ∀ m, parsed ≠ some (.obj m)) :
    obtainTransConstraintsJson raw parsed = .ok ⟨stringToStringVector raw, []⟩ := by
  unfold obtainTransConstraintsJson
  by_cases hr : raw.length = 0
  · rw [if_pos hr]
    have : raw = [] := List.length_eq_zero_iff.1 hr
    subst this
    have : stringToStringVector [] = [] := (onlyWs_iff []).1 rfl
    rw [this]; rfl
  · rw [if_neg hr]
    cases parsed with
    | none => rfl
    | some j =>
      cases j with
      | obj m => exact absurd rfl (hp m)
      | null => rfl
      | other => rfl
      | str s => rfl
      | arr l => rfl

theorem tagPair_none (j : Json) : tagPair j = none ↔ ∀ m, j ≠ .obj m := by
  cases j with
  | obj m =>
    constructor
    · intro h
      unfold tagPair Json.get at h
      simp only at h
      split at h <;> simp_all
    · intro h; exact absurd rfl (h m)
  | null => exact ⟨fun _ m => (by intro h; cases h), fun _ => rfl⟩
  | other => exact ⟨fun _ m => (by intro h; cases h), fun _ => rfl⟩
  | str s => exact ⟨fun _ m => (by intro h; cases h), fun _ => rfl⟩
  | arr l => exact ⟨fun _ m => (by intro h; cases h), fun _ => rfl⟩

theorem tagPairs_none (js : List Json) : tagPairs js = none ↔ ∃ j ∈ js, ∀ m, j ≠ .obj m := by
  induction js with
  | nil => simp [tagPairs]
  | cons j js ih =>
    rw [tagPairs]
    cases h : tagPair j with
    | none =>
      simp only [true_iff]
      exact ⟨j, List.mem_cons_self, (tagPair_none j).1 h⟩
    | some p =>
      have hj : ¬ ∀ m, j ≠ .obj m := fun hc => by rw [(tagPair_none j).2 hc] at h; cases h
      cases h2 : tagPairs js with
      | none =>
        simp only [true_iff]
        obtain ⟨x, hx, hm⟩ := ih.1 h2
        exact ⟨x, List.mem_cons_of_mem _ hx, hm⟩
      | some ps =>
        simp only [reduceCtorEq, false_iff]
        rintro ⟨x, hx, hm⟩
        rcases List.mem_cons.1 hx with rfl | hx
        · exact hj hm
        · have := ih.2 ⟨x, hx, hm⟩
          rw [this] at h2; cases h2

/-- **C213.** Reading throws exactly when the list of tags has an element that is not an object. -/
theorem C213_throws (raw : Str) (parsed : Option Json) :
    obtainTransConstraintsJson raw parsed = .exc ↔
      raw ≠ [] ∧ ∃ m js, parsed = some (.obj m) ∧ AMap.lk m "tex_segmentation".toList = some (.arr js) ∧
        ∃ j ∈ js, ∀ x, j ≠ .obj x := by
  have hadd : ∀ w s tps m, addLoop w s tps m ≠ .exc := by
    intro w s tps m
    induction h : (w.length - s) + tps.length using Nat.strongRecOn generalizing s tps m with
    | _ n ih =>
      cases tps with
      | nil => rw [addLoop]; intro hc; cases hc
      | cons tp rest =>
        rw [addLoop]
        by_cases hs : s < w.length
        · rw [if_pos hs]
          simp only [List.length_cons] at h
          cases hq : isPhraseInSentence w tp.1 s with
          | none => intro hc; cases hc
          | some b =>
            cases b with
            | true => exact ih ((w.length - (s + tp.1.length)) + rest.length) (by omega) _ _ _ rfl
            | false =>
              exact ih ((w.length - (s + 1)) + (tp :: rest).length) (by simp only [List.length_cons]; omega) _ _ _ rfl
        · rw [if_neg hs]; intro hc; cases hc
  constructor
  · intro h
    have hr : raw ≠ [] := by
      intro hc; subst hc
      cases h
    cases parsed with
    | none => rw [C213_plain_text raw none (by intro m hc; cases hc)] at h; cases h
    | some j =>
      by_cases hj : ∀ m, some j ≠ some (.obj m)
      · rw [C213_plain_text raw (some j) hj] at h; cases h
      · have : ∃ m, j = .obj m := by
          cases j with
          | obj m => exact ⟨m, rfl⟩
          | null => exact absurd (fun m hc => by cases hc) hj
          | other => exact absurd (fun m hc => by cases hc) hj
          | str s => exact absurd (fun m hc => by cases hc) hj
          | arr l => exact absurd (fun m hc => by cases hc) hj
        obtain ⟨m, rfl⟩ := this
        refine ⟨hr, m, ?_⟩
        unfold obtainTransConstraintsJson at h
        rw [if_neg (fun h0 => hr (List.length_eq_zero_iff.1 h0))] at h
        simp only at h
        have hjc : jsonConstraints m (jsonSentence m) = .exc := by
          cases hc : jsonConstraints m (jsonSentence m) with
          | ok c => rw [hc] at h; cases h
          | oob => rw [hc] at h; cases h
          | exc => rfl
        unfold jsonConstraints at hjc
        have e1 : (Json.obj m).get kSegm = some ((AMap.lk m "tex_segmentation".toList).getD .null) := rfl
        rw [e1] at hjc
        cases hl : AMap.lk m "tex_segmentation".toList with
        | none => rw [hl] at hjc; cases hjc
        | some v =>
          rw [hl] at hjc
          cases v with
          | arr js =>
            refine ⟨js, rfl, rfl, ?_⟩
            simp only [Option.getD_some] at hjc
            cases ht : tagPairs js with
            | none => exact (tagPairs_none js).1 ht
            | some ps =>
              rw [ht] at hjc
              cases ps with
              | nil => cases hjc
              | cons p ps => exact absurd hjc (hadd _ _ _ _)
          | null => cases hjc
          | other => cases hjc
          | str s => cases hjc
          | obj x => cases hjc
  · rintro ⟨hr, m, js, rfl, hl, hj⟩
    unfold obtainTransConstraintsJson
    rw [if_neg (fun h0 => hr (List.length_eq_zero_iff.1 h0))]
    have e1 : (Json.obj m).get kSegm = some (.arr js) := by
      show some ((AMap.lk m "tex_segmentation".toList).getD .null) = _
      rw [hl]; rfl
    have : jsonConstraints m (jsonSentence m) = .exc := by
      unfold jsonConstraints
      rw [e1]
      simp only [(tagPairs_none js).2 hj]
    simp only [this]

/-- **C213 is false of the code**: a tag that is a string. -/
theorem C213_counterexample : ¬ C213_full := by
  intro h
  obtain ⟨d, hd⟩ := h ['x'] (some (.obj [("tex_segmentation".toList, .arr [.str ['a']])]))
  rw [(C213_throws _ _).2 ⟨by decide, _, _, rfl, rfl, .str ['a'], List.mem_cons_self, by intro x hc; cases hc⟩] at hd
  cases hd

end Thot.Meta
