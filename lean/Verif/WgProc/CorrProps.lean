import Verif.WgProc.Basic
import Verif.WordGraph.Nb

/-!
# C137, C138, C141: the corrections suggested by the word-graph processor
-/

namespace Thot.WgProc

open Thot.WordGraph (WG Arc small Live Path Allowed Topo WF FinalOk)
open Thot.EditDist (Costs prefWords WScript)

/-! ## Specification -/

/-- The states a processor can be in after any number of calls for the graph `g`, from `none` (a graph that has just been
linked). -/
inductive Hist (g : WG) (P : Par) : Option PS → Prop
  | fresh : Hist g P none
  | call {st : Option PS} {p : Str} {n : Nat} {rej : List (Str × Str)} {r : List (Score × List Str)} {st' : PS} :
    Hist g P st → correct g P p n rej st = some (r, st') → Hist g P (some st')

/-- `b` is the text `p` typed by the user, where an incomplete last word may have been completed. -/
def Begins (p : Str) (b : List Str) : Prop :=
  (p.getLast? = some ' ' → b = StrProc.stringToStringVector p) ∧
  (p.getLast? ≠ some ' ' → ∃ v l w, StrProc.stringToStringVector p = v ++ [l] ∧ b = v ++ [w] ∧ l <+: w)

/-- A word is compatible with the rejected words: it starts with what the user accepted and does not go on with what the
user rejected. -/
def Respects (rej : List (Str × Str)) (w : Str) : Prop := ∀ r ∈ rej, r.1 <+: w ∧ w ≠ r.1 ++ r.2

/-- The words of a path. -/
def words (p : List (Nat × Arc)) : List Str := p.flatMap fun e => e.2.words

/-- `c` is a suggestion with the words `s` after the text of the user: some path of the graph from the initial state has the
words `u ++ s`, where the beginning `u` was corrected into the text of the user; a blank at the end of the last word is
removed. -/
def Suggests (g : WG) (p : Str) (c u s : List Str) (t : Nat) : Prop :=
  ∃ path b, Path (Live g) 0 path t ∧ words path = u ++ s ∧ Begins p b ∧ c = stripLast (b ++ s)

/-- The words of the graph are not empty and do not end with the mark used by the cache of substitution costs. -/
def WordsOk (g : WG) : Prop := ∀ a ∈ g.arcs, ∀ w ∈ a.words, w ≠ [] ∧ ¬ " pref".toList <:+ w

/-! ## Lemmas -/

theorem respects_of_wordOk {w : Str} {rej : List (Str × Str)} (h : wordOk w rej = true) : Respects rej w := by
  induction rej with
  | nil => intro r hr; simp at hr
  | cons x l ih =>
    unfold wordOk at h
    split at h
    · cases h
    · split at h
      · cases h
      · split at h
        · cases h
        · rename_i h1 h2 h3
          intro r hr
          rcases List.mem_cons.1 hr with rfl | hr
          · have h2' : r.1 = w.take r.1.length := by simpa using h2
            refine ⟨by rw [h2']; exact List.take_prefix _ _, fun he => h3 ?_⟩
            rw [he]; simp
          · exact ih h r hr

theorem wordOk_iff (w : Str) (rej : List (Str × Str)) : wordOk w rej = true ↔ Respects rej w := by
  refine ⟨respects_of_wordOk, fun h => ?_⟩
  induction rej with
  | nil => rfl
  | cons x l ih =>
    obtain ⟨⟨t, ht⟩, h2⟩ := h x (by simp)
    unfold wordOk
    rw [if_neg, if_neg, if_neg]
    · exact ih fun r hr => h r (by simp [hr])
    · intro he; exact h2 (by rw [← ht] at he ⊢; simpa using he)
    · rw [← ht]; simp
    · rw [← ht]; simp

theorem pathWords_eq (p : List (Nat × Arc)) : pathWords (p.map Prod.snd).reverse = words p := by
  simp [pathWords, words, List.flatMap_map]

theorem excluded_mem {g : WG} {rej : List (Str × Str)} : ∀ {ids ex : List Nat}, excluded g rej ids = some ex →
    ∀ i ∈ ids, ∃ a w, g.arcs[i]? = some a ∧ a.words.head? = some w ∧ (i ∉ ex → wordOk w rej = true) := by
  intro ids
  induction ids with
  | nil => intro ex _ i hi; simp at hi
  | cons j l ih =>
    intro ex h i hi
    unfold excluded at h
    cases ha : g.arcs[j]? with
    | none => simp [ha] at h
    | some a =>
      cases hr : excluded g rej l with
      | none => simp [ha, hr] at h
      | some r =>
        simp only [ha, hr] at h
        cases hw : a.words.head? with
        | none => simp [hw] at h
        | some w =>
          simp only [hw, Option.some.injEq] at h
          subst h
          rcases List.mem_cons.1 hi with rfl | hi
          · refine ⟨a, w, ha, hw, fun hn => ?_⟩
            cases hk : wordOk w rej with
            | true => rfl
            | false => simp [hk] at hn
          · obtain ⟨a', w', h1, h2, h3⟩ := ih hr i hi
            refine ⟨a', w', h1, h2, fun hn => h3 fun hx => hn ?_⟩
            split <;> simp [hx]

theorem mem_excluded {g : WG} {rej : List (Str × Str)} : ∀ {ids ex : List Nat}, excluded g rej ids = some ex →
    ∀ i ∈ ex, i ∈ ids ∧ ∃ a w, g.arcs[i]? = some a ∧ a.words.head? = some w ∧ wordOk w rej = false := by
  intro ids
  induction ids with
  | nil => intro ex h i hi; simp only [excluded, Option.some.injEq] at h; subst h; simp at hi
  | cons j l ih =>
    intro ex h i hi
    unfold excluded at h
    cases ha : g.arcs[j]? with
    | none => simp [ha] at h
    | some a =>
      cases hr : excluded g rej l with
      | none => simp [ha, hr] at h
      | some r =>
        simp only [ha, hr] at h
        cases hw : a.words.head? with
        | none => simp [hw] at h
        | some w =>
          simp only [hw, Option.some.injEq] at h
          subst h
          split at hi
          · obtain ⟨h1, h2⟩ := ih hr i hi
            exact ⟨by simp [h1], h2⟩
          · rename_i hk
            rcases List.mem_cons.1 hi with rfl | hi
            · exact ⟨by simp, a, w, ha, hw, by simpa using hk⟩
            · obtain ⟨h1, h2⟩ := ih hr i hi
              exact ⟨by simp [h1], h2⟩

/-- The suffix chosen for a state begins with a word compatible with the rejected words. -/
theorem suffix_respects {g : WG} (hw : WF g) {rej : List (Str × Str)} {s : Nat} {ex : List Nat}
    (h : excludedOf g rej s = some ex) {p : List (Nat × Arc)} {t : Nat} (hp : Path (Allowed g ex) s p t) :
    ∀ w, (words p).head? = some w → Respects rej w := by
  unfold excludedOf at h
  split at h
  · rename_i hr
    intro w _ r hr'
    simp at hr; subst hr; simp at hr'
  · rw [WordGraph.C61_arcIdsToSucc hw s] at h
    simp only [Option.bind_some] at h
    intro w hwd
    cases hp with
    | nil => simp [words] at hwd
    | @cons i a p t ha hp =>
      obtain ⟨b, w', h1, h2, h3⟩ := excluded_mem h i (by
        simp only [List.mem_filter, List.mem_range]
        have := ha.1
        refine ⟨(List.getElem?_eq_some_iff.1 this.1).1, ?_⟩
        simp [this.1, this.2])
      rw [ha.1.1] at h1; cases h1
      have : (words ((i, a) :: p)).head? = some w' := by
        simp only [words, List.flatMap_cons, List.head?_append, h2]; rfl
      rw [this] at hwd; cases hwd
      exact (wordOk_iff _ _).1 (h3 ha.2)

theorem tokens_no_blank {p t : Str} (h : t ∈ StrProc.stringToStringVector p) : t ≠ [] ∧ ' ' ∉ t := by
  obtain ⟨h1, h2⟩ := (StrProc.C15_token_facts p).1 t h
  exact ⟨h1, fun hc => (h2 _ hc).1 rfl⟩

theorem getLast?_ne_blank {t : Str} (h : ' ' ∉ t) : t.getLast? ≠ some ' ' :=
  fun hc => h (List.mem_of_getLast? hc)

theorem removeLastBlank_of_ne {t : Str} (h : t.getLast? ≠ some ' ') : StrProc.removeLastBlank t = t := by
  unfold StrProc.removeLastBlank
  split
  · rw [List.getLast?_eq_getElem?] at h
    split
    · rename_i h'; exact absurd h' h
    · rfl
  · rfl

theorem removeLastBlank_snoc (t : Str) : StrProc.removeLastBlank (t ++ [' ']) = t := by
  unfold StrProc.removeLastBlank
  simp

theorem prefVecOf_spec {p : Str} {q : List Str} (h : prefVecOf p = some q) (hv : StrProc.stringToStringVector p ≠ []) :
    ∃ v l, StrProc.stringToStringVector p = v ++ [l] ∧
      ((p.getLast? = some ' ' ∧ q = v ++ [l ++ [' ']]) ∨ (p.getLast? ≠ some ' ' ∧ q = v ++ [l])) := by
  obtain ⟨v, l, hvl⟩ : ∃ v l, StrProc.stringToStringVector p = v ++ [l] := by
    rcases WordGraph.nil_or_snoc (StrProc.stringToStringVector p) with h | h
    · exact absurd h hv
    · exact h
  refine ⟨v, l, hvl, ?_⟩
  unfold prefVecOf at h
  cases hp : p.getLast? with
  | none => simp [hp] at h
  | some c =>
    simp only [hp, hvl, List.getLast?_append, List.getLast?_singleton, Option.some_or, List.dropLast_concat,
      Option.some.injEq] at h
    by_cases hc : c = ' '
    · left; rw [if_pos hc] at h; exact ⟨by rw [hc], h.symm⟩
    · right; rw [if_neg hc] at h; exact ⟨fun h => hc (Option.some.inj h), h.symm⟩

theorem combine_begins {k : Costs} (hk : k.del ≠ 0) {p : Str} {q u c : List Str} (h : prefVecOf p = some q)
    (hv : StrProc.stringToStringVector p ≠ []) (hu : ∀ w ∈ u, w ≠ [] ∧ ¬ " pref".toList <:+ w)
    (hc : combine k u q = some c) : Begins p c := by
  obtain ⟨v, l, hvl, hq⟩ := prefVecOf_spec h hv
  have htok : ∀ t ∈ v ++ [l], t ≠ [] ∧ ' ' ∉ t := fun t ht => tokens_no_blank (hvl ▸ ht)
  have hl := htok l (by simp)
  unfold combine at hc
  split at hc
  · cases hc
    rcases hq with ⟨hp, rfl⟩ | ⟨hp, rfl⟩
    · refine ⟨fun _ => ?_, fun h => absurd hp h⟩
      rw [hvl]; simp [stripLast, removeLastBlank_snoc]
    · refine ⟨fun h => absurd h hp, fun _ => ⟨v, l, l, hvl, ?_, List.prefix_refl _⟩⟩
      simp [stripLast, removeLastBlank_of_ne (getLast?_ne_blank hl.2)]
  · have hq0 : ∀ x ∈ q, x ≠ [] := by
      rcases hq with ⟨-, rfl⟩ | ⟨-, rfl⟩
      · intro x hx
        rcases List.mem_append.1 hx with hx | hx
        · exact (htok x (by simp [hx])).1
        · simp at hx; subst hx; simp
      · intro x hx; exact (htok x hx).1
    have hqd : q.dropLast = v := by rcases hq with ⟨-, rfl⟩ | ⟨-, rfl⟩ <;> simp
    have hqn : q ≠ [] := by rcases hq with ⟨-, rfl⟩ | ⟨-, rfl⟩ <;> simp
    obtain ⟨r, d, h1, -, -, l', w, h2, h3, h4, h5⟩ := EditDist.C54_correct_sentence_wg_partial k hk u q
      (fun a ha => (hu a ha).1) (fun a ha => (hu a ha).2) hq0
      (fun x hx => getLast?_ne_blank (htok x (by rw [hqd] at hx; simp [hx])).2) hqn
    rw [h1] at hc; cases hc
    rw [hqd] at h3
    subst h3
    rcases hq with ⟨hp, rfl⟩ | ⟨hp, rfl⟩
    · simp at h2; subst h2
      obtain ⟨n, hn, h6, h7⟩ := h5 (by simp)
      refine ⟨fun _ => ?_, fun h => absurd hp h⟩
      rw [hvl]
      obtain ⟨m, rfl⟩ : ∃ m, n = m + 1 := ⟨n - 1, by omega⟩
      rw [List.replicate_succ', ← List.append_assoc] at h6
      have h8 : l = w ++ List.replicate m ' ' := List.append_cancel_right h6
      cases m with
      | zero => simp at h8; rw [h8]
      | succ m => exact absurd (h8 ▸ by simp : ' ' ∈ l) hl.2
    · simp at h2; subst h2
      exact ⟨fun h => absurd h hp, fun _ => ⟨v, l, w, hvl, rfl, h4 (getLast?_ne_blank hl.2)⟩⟩

theorem Hist.predOk {g : WG} {P : Par} {st : Option PS} (h : Hist g P st) : ∀ s, st = some s → PredOk g s := by
  induction h with
  | fresh => intro s h; cases h
  | @call st p n rej r st' hh hc ih =>
    intro s hs; cases hs
    unfold correct at hc
    simp only [Option.bind_eq_bind, Option.bind_eq_some_iff, Option.some.injEq, Prod.mk.injEq] at hc
    obtain ⟨st0, h0, inv, -, q, -, st1, h1, r', -, rfl, rfl⟩ := hc
    refine predOk_process ?_ h1
    cases st with
    | none => exact predOk_initVars h0
    | some s0 => cases h0; exact ih _ rfl

theorem correct_parts {g : WG} {P : Par} {p : Str} {n : Nat} {rej : List (Str × Str)} {st : Option PS}
    {r : List (Score × List Str)} {st' : PS} (h : correct g P p n rej st = some (r, st')) :
    ∃ inv q, involved g (List.range g.arcs.length) [] = some inv ∧ prefVecOf p = some q ∧
      corrections g P inv q n rej st' = some r := by
  unfold correct at h
  simp only [Option.bind_eq_bind, Option.bind_eq_some_iff, Option.some.injEq, Prod.mk.injEq] at h
  obtain ⟨st0, h0, inv, hi, q, hq, st1, h1, r', hr, rfl, rfl⟩ := h
  exact ⟨inv, q, hi, hq, hr⟩

theorem mem_subWords {P : Par} {n : Nat} {rej : List (Str × Str)} {st : PS} {id : Nat} {a : Arc} :
    ∀ (l : List Nat) {nb r : List (Score × Nat × Nat)}, subWords P n rej st id a l nb = some r →
      ∀ y ∈ r, y ∈ nb ∨ (y.2.1 = id ∧ ∃ nw, a.words[y.2.2 + 1]? = some nw ∧ Respects rej nw) := by
  intro l
  induction l with
  | nil => intro nb r h y hy; simp only [subWords, Option.some.injEq] at h; subst h; exact Or.inl hy
  | cons w l ih =>
    intro nb r h y hy
    unfold subWords at h
    cases hw : a.words[w + 1]? with
    | none => simp [hw] at h
    | some nw =>
      simp only [hw] at h
      split at h
      · exact ih h y hy
      · rename_i hrej
        split at h
        · rcases ih h y hy with h | h
          · rcases mem_nbAdd h with rfl | h
            · refine Or.inr ⟨rfl, nw, hw, ?_⟩
              cases rej with
              | nil => intro r hr; simp at hr
              | cons x l =>
                simp only [List.isEmpty_cons, Bool.not_false, Bool.true_and, Bool.not_eq_true', Bool.not_eq_false] at hrej
                exact (wordOk_iff _ _).1 hrej
            · exact Or.inl h
          · exact Or.inr h
        · cases h

theorem mem_nbSubStates {g : WG} {P : Par} {n : Nat} {rej : List (Str × Str)} {st : PS} :
    ∀ (l : List Nat) {nb r : List (Score × Nat × Nat)}, nbSubStates g P n rej st l nb = some r →
      ∀ y ∈ r, y ∈ nb ∨ ∃ a, Live g y.2.1 a ∧ ∃ nw, a.words[y.2.2 + 1]? = some nw ∧ Respects rej nw := by
  intro l
  induction l with
  | nil => intro nb r h y hy; simp only [nbSubStates, Option.some.injEq] at h; subst h; exact Or.inl hy
  | cons i l ih =>
    intro nb r h y hy
    unfold nbSubStates at h
    cases ha : g.arcs[i]? with
    | none => simp [ha] at h
    | some a =>
      cases hb : g.pruned[i]? with
      | none => simp [ha, hb] at h
      | some b =>
        simp only [ha, hb] at h
        cases b with
        | true => simp only [if_true] at h; exact ih h y hy
        | false =>
          cases hs : subWords P n rej st i a (List.range (a.words.length - 1)) nb with
          | none => simp [hs] at h
          | some nb1 =>
            simp [hs] at h
            rcases ih h y hy with h | h
            · rcases mem_subWords _ hs y h with h | ⟨rfl, h⟩
              · exact Or.inl h
              · exact Or.inr ⟨a, ⟨ha, hb⟩, h⟩
            · exact Or.inr h

theorem words_ok_path {g : WG} (h : WordsOk g) {P : Nat → Arc → Prop} (hP : ∀ i a, P i a → g.arcs[i]? = some a) {s t : Nat}
    {p : List (Nat × Arc)} (hp : Path P s p t) : ∀ w ∈ words p, w ≠ [] ∧ ¬ " pref".toList <:+ w := by
  intro w hw
  obtain ⟨e, he, hw⟩ := List.mem_flatMap.1 hw
  exact h e.2 (List.mem_of_getElem? (hP _ _ (hp.mem e he))) w hw

theorem words_append (p q : List (Nat × Arc)) : words (p ++ q) = words p ++ words q := by simp [words]

theorem words_flat (p : List (Nat × Arc)) : (p.map Prod.snd).flatMap Arc.words = words p := by
  simp [words, List.flatMap_map]

/-- All there is to know about a correction. -/
theorem correction_spec {g : WG} (hw : WF g) (hg : WordsOk g) {P : Par} (hk : P.k.del ≠ 0) {st : Option PS}
    (hh : Hist g P st) {p : Str} (hv : StrProc.stringToStringVector p ≠ []) {n : Nat} {rej : List (Str × Str)}
    {r : List (Score × List Str)} {st' : PS} (h : correct g P p n rej st = some (r, st')) :
    ∀ e ∈ r, ∃ u s t, Suggests g p e.2 u s t ∧ (∀ w, s.head? = some w → Respects rej w) ∧
      (t ∈ g.final ∨ ∃ m ex, excludedOf g m t = some ex ∧ (m = [] ∨ (m = rej ∧ s = [])) ∧
        ∃ sc, WordGraph.bestPath g t ex = some (sc, [])) := by
  have hpred : PredOk g st' := (Hist.call hh h).predOk st' rfl
  obtain ⟨inv, q, hinv, hq, hcor⟩ := correct_parts h
  unfold corrections at hcor
  simp only [Option.bind_eq_bind, Option.bind_eq_some_iff] at hcor
  obtain ⟨hs, h1, hss, h2, nb, h3, h4⟩ := hcor
  intro e he
  rcases mem_nbCorr h4 e he with he | ⟨x, hx, -, hf⟩
  · rcases mem_nbCorr h3 e he with he | ⟨x, hx, -, hf⟩
    · simp at he
    · unfold corrState at hf
      split at hf
      · cases hf
      · rename_i u hu
        split at hf
        · rename_i c b hc hb
          simp only [Option.some.injEq] at hf
          obtain ⟨p1, hp1, rfl⟩ := uncorr_path hpred _ _ _ _ hu
          rw [words_flat] at hc
          cases hex : excludedOf g rej x.2 with
          | none => simp [hex] at hb
          | some ex =>
            simp only [hex, Option.bind_some] at hb
            obtain ⟨p2, t, hp2, hb2, ht⟩ := bestPath_path hb
            refine ⟨words p1, words p2, t, ⟨p1 ++ p2, c, ?_, words_append _ _, ?_, ?_⟩, suffix_respects hw hex hp2, ?_⟩
            · exact hp1.append (hp2.mono fun _ _ h => h.1)
            · exact combine_begins hk hq hv (words_ok_path hg (fun _ _ h => h.1) hp1) hc
            · rw [← hf, hb2, pathWords_eq]
            · rcases ht with ht | rfl
              · exact Or.inl ht
              · cases hp2.nil_eq
                refine Or.inr ⟨rej, ex, hex, Or.inr ⟨rfl, rfl⟩, b.1, ?_⟩
                rw [hb]; simp at hb2; rw [← hb2]
        · cases hf
  · obtain h' | ⟨a, ha, nw, hnw, hres⟩ := mem_nbSubStates _ h2 x hx
    · simp at h'
    · unfold corrSub uncorrSub at hf
      simp only [ha.1] at hf
      cases hbw : backWords (st'.esiA x.2.1) (x.2.2 + 1) q.length with
      | none => simp [hbw] at hf
      | some j =>
        simp only [hbw] at hf
        have hlt := (List.getElem?_eq_some_iff.1 hnw).1
        rw [if_pos (by omega)] at hf
        cases hu : uncorr g st' g.arcs.length j a.pred with
        | none => simp [hu] at hf
        | some u =>
          simp only [hu, Option.map_some] at hf
          split at hf
          · rename_i c b hc hb
            simp only [Option.some.injEq] at hf
            obtain ⟨p1, hp1, rfl⟩ := uncorr_path hpred _ _ _ _ hu
            rw [words_flat] at hc
            obtain ⟨p2, t, hp2, hb2, ht⟩ := bestPath_path hb
            refine ⟨words p1 ++ a.words.take (x.2.2 + 1), a.words.drop (x.2.2 + 1) ++ words p2, t,
              ⟨p1 ++ (x.2.1, a) :: p2, c, ?_, ?_, ?_, ?_⟩, ?_, ?_⟩
            · exact hp1.append (.cons ha (hp2.mono fun _ _ h => h.1))
            · rw [words_append]
              have hcons : words ((x.2.1, a) :: p2) = a.words ++ words p2 := rfl
              rw [hcons]
              simp only [List.append_assoc]
              rw [← List.append_assoc (a.words.take _), List.take_append_drop]
            · refine combine_begins hk hq hv (fun w hw' => ?_) hc
              rcases List.mem_append.1 hw' with hw' | hw'
              · exact words_ok_path hg (fun _ _ h => h.1) hp1 w hw'
              · exact hg a (List.mem_of_getElem? ha.1) w (List.mem_of_mem_take hw')
            · rw [← hf, hb2, pathWords_eq, List.append_assoc]
            · intro w hwd
              rw [List.head?_append, List.head?_drop, hnw, Option.some_or, Option.some.injEq] at hwd
              exact hwd ▸ hres
            · rcases ht with ht | rfl
              · exact Or.inl ht
              · cases hp2.nil_eq
                refine Or.inr ⟨[], [], by simp [excludedOf], Or.inl rfl, b.1, ?_⟩
                rw [hb]; simp at hb2; rw [← hb2]
          · cases hf

/-! ## C137 -/

theorem begins_strip {p : Str} (hv : StrProc.stringToStringVector p ≠ []) {b s : List Str} (h : Begins p b) :
    ∃ b', Begins p b' ∧ b' <+: stripLast (b ++ s) := by
  rcases WordGraph.nil_or_snoc s with rfl | ⟨s, x, rfl⟩
  · refine ⟨stripLast b, ?_, by simp⟩
    by_cases hp : p.getLast? = some ' '
    · have hb := h.1 hp
      refine ⟨fun _ => ?_, fun hn => absurd hp hn⟩
      subst hb
      rcases WordGraph.nil_or_snoc (StrProc.stringToStringVector p) with h0 | ⟨v, l, hvl⟩
      · exact absurd h0 hv
      · have := tokens_no_blank (p := p) (t := l) (by simp [hvl])
        rw [hvl]
        simp [stripLast, removeLastBlank_of_ne (getLast?_ne_blank this.2)]
    · obtain ⟨v, l, w, hvl, rfl, hlw⟩ := h.2 hp
      refine ⟨fun hn => absurd hn hp, fun _ => ⟨v, l, StrProc.removeLastBlank w, hvl, by simp [stripLast], ?_⟩⟩
      have hl := tokens_no_blank (p := p) (t := l) (by simp [hvl])
      rcases WordGraph.nil_or_snoc w with rfl | ⟨w, c, rfl⟩
      · exact hlw
      · by_cases hc : c = ' '
        · subst hc
          rw [removeLastBlank_snoc]
          rcases List.prefix_concat_iff.1 hlw with h | h
          · exact absurd (h ▸ by simp : ' ' ∈ l) hl.2
          · exact h
        · rw [removeLastBlank_of_ne (by simpa using hc)]; exact hlw
  · refine ⟨b, h, ?_⟩
    rw [← List.append_assoc]
    have hd : stripLast (b ++ s ++ [x]) = b ++ (s ++ [StrProc.removeLastBlank x]) := by
      unfold stripLast
      rw [List.getLast?_concat]
      show (b ++ s ++ [x]).dropLast ++ [StrProc.removeLastBlank x] = _
      rw [List.dropLast_concat, List.append_assoc]
    rw [hd]
    exact List.prefix_append _ _

/-- **C137.** Whatever prefixes were processed before, each suggestion consists of the text typed by the user, where only an
incomplete last word may have been completed, followed by the words of the end of a path of the graph; the words of the
beginning of this path are the ones that were corrected into the text of the user. -/
theorem C137_corrections_complete_prefix {g : WG} (hw : WF g) (hg : WordsOk g) {P : Par} (hk : P.k.del ≠ 0)
    {st : Option PS} (hh : Hist g P st) {p : Str} (hv : StrProc.stringToStringVector p ≠ []) {n : Nat}
    {rej : List (Str × Str)} {r : List (Score × List Str)} {st' : PS} (h : correct g P p n rej st = some (r, st')) :
    ∀ e ∈ r, (∃ b, Begins p b ∧ b <+: e.2) ∧ ∃ u s t, Suggests g p e.2 u s t := by
  intro e he
  obtain ⟨u, s, t, hs, -⟩ := correction_spec hw hg hk hh hv h e he
  refine ⟨?_, u, s, t, hs⟩
  obtain ⟨path, b, -, -, hb, hc⟩ := hs
  rw [hc]
  exact begins_strip hv hb

/-! ## C141 -/

/-- **C141.** The word that follows the text of the user in a suggestion starts with the part of it that was accepted and
does not go on with a part that was rejected. The suggestion leads to a final state of the graph, unless no final state can be
reached in this way with a score above the smallest one. -/
theorem C141_rejected_words {g : WG} (ht : Topo g) (hw : WF g) (hf : FinalOk g) (hg : WordsOk g) {P : Par}
    (hk : P.k.del ≠ 0) {st : Option PS} (hh : Hist g P st) {p : Str} (hv : StrProc.stringToStringVector p ≠ []) {n : Nat}
    {rej : List (Str × Str)} {r : List (Score × List Str)} {st' : PS} (h : correct g P p n rej st = some (r, st')) :
    ∀ e ∈ r, ∃ u s t, Suggests g p e.2 u s t ∧ (∀ w, s.head? = some w → Respects rej w) ∧
      (t ∈ g.final ∨ ∀ p' f, f ∈ g.final → Path (Live g) t p' f →
        (s = [] → ∀ w, (words p').head? = some w → Respects rej w) →
        WordGraph.baseScore g t + WordGraph.score WordGraph.own p' ≤ small) := by
  intro e he
  obtain ⟨u, s, t, hs, hr, hfin⟩ := correction_spec hw hg hk hh hv h e he
  refine ⟨u, s, t, hs, hr, ?_⟩
  rcases hfin with hfin | ⟨m, ex, hex, hm, sc, hbp⟩
  · exact Or.inl hfin
  · by_cases hfin : t ∈ g.final
    · exact Or.inl hfin
    · right
      intro p' f hfm hp' hres
      have hall : Path (Allowed g ex) t p' f := by
        have hx : m = [] → ex = [] := by rintro rfl; simpa [excludedOf] using hex.symm
        by_cases hm0 : m = []
        · rw [hx hm0]; exact hp'.mono fun _ _ h => ⟨h, by simp⟩
        · obtain ⟨rfl, rfl⟩ : m = rej ∧ s = [] := by
            rcases hm with h | h
            · exact absurd h hm0
            · exact h
          have hne : m.isEmpty = false := by cases m <;> simp_all
          unfold excludedOf at hex
          rw [hne] at hex
          simp only [Bool.false_eq_true, if_false, WordGraph.C61_arcIdsToSucc hw, Option.bind_some] at hex
          refine hp'.restrict fun e hi => ⟨hp'.mem e hi, fun hmem => ?_⟩
          obtain ⟨i, a⟩ := e
          obtain ⟨h1, a', w, h2, h3, h4⟩ := mem_excluded hex i hmem
          have hl := hp'.mem _ hi
          simp only at hl
          rw [hl.1] at h2; cases h2
          have hpt : a.pred = t := by
            have := (List.mem_filter.1 h1).2
            simp only [hl.1, Option.map_some, Bool.and_eq_true, beq_iff_eq, Option.some.injEq] at this
            exact this.1
          obtain ⟨q1, q2, rfl⟩ := List.append_of_mem hi
          cases q1 with
          | nil =>
            refine absurd ((wordOk_iff _ _).2 (hres rfl w ?_)) (by simp [h4])
            simp only [List.nil_append, words, List.flatMap_cons, List.head?_append, h3, Option.some_or]
          | cons e1 q1 =>
            exfalso
            obtain ⟨u', hp1, hp2⟩ := WordGraph.Path.split (p := e1 :: q1) hp'
            have hu' : u' = t := by
              rcases hp2.inv with ⟨h, -⟩ | ⟨_, _, _, h, h', -, -⟩
              · simp at h
              · simp at h; rw [h', ← h.1.2, hpt]
            subst hu'
            obtain ⟨q, ⟨j, b⟩, hq⟩ : ∃ q e, e1 :: q1 = q ++ [e] := by
              rcases WordGraph.nil_or_snoc (e1 :: q1) with h | h
              · simp at h
              · exact h
            rw [hq] at hp1
            obtain ⟨u'', hp3, hp4⟩ := WordGraph.Path.split hp1
            rcases hp4.inv with ⟨h, -⟩ | ⟨j', b', q', h, rfl, hb, hp5⟩
            · simp at h
            · simp at h
              obtain ⟨⟨rfl, rfl⟩, rfl⟩ := h
              exact WordGraph.no_cycle ht (fun _ _ h => h.1) hp3 hb hp5.nil_eq.symm
      obtain ⟨hts, hne⟩ : t < g.states.length ∧ g.arcs ≠ [] := by
        rcases hall.inv with ⟨-, rfl⟩ | ⟨i, a, _, -, rfl, ha, -⟩
        · exact absurd hfm hfin
        · exact ⟨hw.pred i a ha.1.1, fun h => by have := ha.1.1; simp [h] at this⟩
      obtain ⟨prev, best, hc, hlen, hprev⟩ := WordGraph.C55_prevScores_partial ht hw hne t hts ex
      obtain ⟨b, hb, -, hb2, hb3⟩ := WordGraph.bestFinal_ok (prev := prev) g.final (WordGraph.initialState, small)
        (fun x hx => by rw [hlen]; exact hf x hx)
      unfold WordGraph.calcPrevScores at hc
      simp only [WordGraph.bestPath, WordGraph.bestPathWeights, hc, WordGraph.bestPathAux, hb] at hbp
      have hb1 : b.1 ∉ g.final := by
        intro hbf
        have : WordGraph.stateIsFinal g b.1 = true := by simpa [WordGraph.stateIsFinal] using hbf
        rw [this, if_pos rfl] at hbp
        simp only [Option.map_eq_some_iff, Prod.mk.injEq] at hbp
        obtain ⟨l, hl, -, rfl⟩ := hbp
        unfold WordGraph.followBest at hl
        split at hl
        · rename_i h; exact hfin (h ▸ hbf)
        · split at hl
          · cases hl
          · split at hl <;> simp at hl
      have hb4 : b.2 = small := by
        rcases hb2 with rfl | h
        · rfl
        · exact absurd h.1 hb1
      obtain ⟨v, hv'⟩ : ∃ v, prev[f]? = some v := ⟨_, List.getElem?_eq_getElem (by rw [hlen]; exact hf f hfm)⟩
      have h1 := (hprev f v hv').1 p' hall
      have h2 := hb3 f hfm v hv'
      grind

end Thot.WgProc
