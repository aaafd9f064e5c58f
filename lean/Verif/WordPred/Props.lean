import Verif.WordPred.Model
import Verif.Trie.Props
/-! Properties C48 (suffix lists), C49 (best suffix) and C50 (only added words are predicted). -/
namespace Thot.WordPred
open Trie

/-! ### Specification -/

/-- The words of the sentences that have been taken into account: whole batches of `r` sentences. -/
def taken (r : Nat) (ss : List Sentence) : List Word := (ss.take (r * (ss.length / r))).flatten

/-! ### Helper lemmas -/

/-- The trie holds the word counts of `W`. -/
structure Cnt (t : T Char Nat) (W : List Word) : Prop where
  ok : Ok t
  raw : ∀ d, t = .raw d → d = 0
  val : ∀ ks : Word, ks ≠ [] → find t ks = if ∃ w ∈ W, ks <+: w then some (W.count ks) else none

theorem modify_ne_raw {f : Nat → Nat} {t : T Char Nat} {w : Word} {d : Nat} (hw : w ≠ []) (h : modify f t w = .raw d) :
    t = .raw d := by
  cases w with
  | nil => exact absurd rfl hw
  | cons k ks =>
    cases t with
    | nil => simp [Trie.modify] at h
    | raw d' => simpa [Trie.modify] using h
    | node k' d' c n => rw [Trie.modify] at h; split at h <;> (try split at h) <;> simp at h

theorem insert_ne_raw {t : T Char Nat} {w : Word} {d v : Nat} (hw : w ≠ []) (h : insert 0 v t w = .raw d) : False := by
  cases w with
  | nil => exact hw rfl
  | cons k ks =>
    cases t with
    | nil => simp [Trie.insert] at h
    | raw d' => cases ks <;> simp [Trie.insert, chain] at h
    | node k' d' c n => rw [Trie.insert] at h; split at h <;> split at h <;> simp at h

theorem cnt_addWord {t : T Char Nat} {W : List Word} (h : Cnt t W) (w : Word) (hw : w ≠ []) :
    Cnt (addWord t w) (W ++ [w]) := by
  have hex : ∀ ks : Word, (∃ x ∈ W ++ [w], ks <+: x) ↔ (∃ x ∈ W, ks <+: x) ∨ ks <+: w := by
    intro ks; simp only [List.mem_append, List.mem_singleton]; grind
  have hcnt : ∀ ks : Word, (W ++ [w]).count ks = W.count ks + if w = ks then 1 else 0 := by
    intro ks; rw [List.count_append, List.count_singleton]; simp [beq_iff_eq]
  have hzero : ∀ ks : Word, (¬ ∃ x ∈ W, ks <+: x) → W.count ks = 0 := by
    intro ks hn; exact List.count_eq_zero.2 (fun hm => hn ⟨ks, hm, List.prefix_refl _⟩)
  unfold addWord
  have hv := h.val w hw
  cases hf : find t w with
  | none =>
    simp only
    refine ⟨ok_insert 0 1 h.ok w, fun d hd => (insert_ne_raw hw hd).elim, ?_⟩
    intro ks hk
    rw [find_insert 0 1 h.ok w ks hk, hcnt]
    have hnw : ¬ ∃ x ∈ W, w <+: x := by
      intro hx; rw [hf, if_pos hx] at hv; cases hv
    by_cases hkw : ks = w
    · subst hkw
      rw [if_pos rfl, if_pos ((hex _).2 (Or.inr (List.prefix_refl _))), hzero _ hnw]; simp
    · rw [if_neg hkw, h.val ks hk]
      have hkw' : ¬ w = ks := fun hh => hkw hh.symm
      by_cases hx : ∃ x ∈ W, ks <+: x
      · rw [if_pos hx, if_pos ((hex _).2 (Or.inl hx))]; simp [hkw']
      · rw [if_neg hx]
        simp only
        have hnd : newData 0 t ks = 0 := by
          unfold newData
          split
          · exact h.raw _ rfl
          · rfl
        by_cases hp : ks <+: w
        · rw [if_pos hp, if_pos ((hex _).2 (Or.inr hp)), hzero _ hx, hnd]; simp [hkw']
        · rw [if_neg hp, if_neg]
          rw [hex]; rintro (hh | hh)
          · exact hx hh
          · exact hp hh
  | some v =>
    simp only
    have hxw : ∃ x ∈ W, w <+: x := by
      apply Classical.byContradiction
      intro hn; rw [hf, if_neg hn] at hv; cases hv
    refine ⟨?_, fun d hd => h.raw d (modify_ne_raw hw hd), ?_⟩
    · rcases h.ok with ⟨d, rfl⟩ | ⟨h1, h2⟩
      · cases w with
        | nil => exact absurd rfl hw
        | cons k ks => exact Or.inl ⟨d, rfl⟩
      · refine Or.inr ⟨?_, wf_modify _ _ _ h2⟩
        cases t with
        | nil => exact absurd rfl h1
        | raw d => exact absurd h2 (by simp [WF])
        | node k d c n =>
          cases w with
          | nil => exact absurd rfl hw
          | cons a r => rw [Trie.modify]; split <;> (try split) <;> simp
    · intro ks hk
      cases ks with
      | nil => exact absurd rfl hk
      | cons a r =>
        rw [find_modify _ _ _ hw, hcnt]
        by_cases hkw : a :: r = w
        · subst hkw
          rw [if_pos rfl, h.val _ hk, if_pos hxw, if_pos ((hex _).2 (Or.inl hxw))]; simp
        · have hkw' : ¬ w = a :: r := fun hh => hkw hh.symm
          rw [if_neg hkw, h.val _ hk]
          by_cases hx : ∃ x ∈ W, (a :: r) <+: x
          · rw [if_pos hx, if_pos ((hex _).2 (Or.inl hx))]; simp [hkw']
          · rw [if_neg hx, if_neg]
            rw [hex]
            rintro (hh | hh)
            · exact hx hh
            · obtain ⟨x, hxm, hxp⟩ := hxw
              exact hx ⟨x, hxm, hh.trans hxp⟩

theorem cnt_addSentenceAux {t : T Char Nat} {W : List Word} (h : Cnt t W) (s : Sentence) (hs : ∀ w ∈ s, w ≠ []) :
    Cnt (addSentenceAux t s) (W ++ s) := by
  induction s generalizing t W with
  | nil => simpa [addSentenceAux] using h
  | cons w s ih =>
    have := ih (cnt_addWord h w (hs w List.mem_cons_self)) (fun x hx => hs x (List.mem_cons_of_mem _ hx))
    simpa [addSentenceAux] using this

theorem cnt_batch {t : T Char Nat} {W : List Word} (h : Cnt t W) (ss : List Sentence)
    (hs : ∀ s ∈ ss, ∀ w ∈ s, w ≠ []) : Cnt (ss.foldl addSentenceAux t) (W ++ ss.flatten) := by
  induction ss generalizing t W with
  | nil => simpa using h
  | cons s ss ih =>
    have := ih (cnt_addSentenceAux h s (hs s List.mem_cons_self)) (fun x hx => hs x (List.mem_cons_of_mem _ hx))
    simpa [List.append_assoc] using this

/-- State after adding `ss`: whole batches counted, the rest pending. -/
theorem addAll_spec (r : Nat) (hr : 0 < r) (ss : List Sentence) (hs : ∀ s ∈ ss, ∀ w ∈ s, w ≠ []) :
    let p := ss.foldl addSentence (new r)
    Cnt p.trie (taken r ss) ∧ p.retain = r ∧ p.pending = ss.drop (r * (ss.length / r)) := by
  have key : ∀ n, ∀ ss : List Sentence, ss.length = n → (∀ s ∈ ss, ∀ w ∈ s, w ≠ []) →
      Cnt (ss.foldl addSentence (new r)).trie (taken r ss) ∧ (ss.foldl addSentence (new r)).retain = r ∧
      (ss.foldl addSentence (new r)).pending = ss.drop (r * (ss.length / r)) := by
    intro n
    induction n with
    | zero =>
      intro ss h _
      rw [List.eq_nil_of_length_eq_zero h]
      refine ⟨⟨Or.inl ⟨0, rfl⟩, ?_, ?_⟩, rfl, by simp [new]⟩
      · intro d hd; injection hd with hd; exact hd.symm
      · intro ks hk; simp only [List.foldl_nil, new, Trie.new]; rw [find_raw _ hk]; simp [taken]
    | succ n ih =>
      intro ss hl hs
      have hne : ss ≠ [] := by intro h; rw [h] at hl; simp at hl
      obtain ⟨ss', s, rfl⟩ : ∃ ss' s, ss = ss' ++ [s] :=
        ⟨ss.dropLast, ss.getLast hne, (List.dropLast_concat_getLast hne).symm⟩
      obtain ⟨i1, i2, i3⟩ := ih ss' (by simpa using hl) (fun x hx => hs x (List.mem_append.2 (Or.inl hx)))
      rw [List.foldl_append, List.foldl_cons, List.foldl_nil]
      generalize ss'.foldl addSentence (new r) = p at i1 i2 i3
      have hdm := Nat.div_add_mod ss'.length r
      have hmlt := Nat.mod_lt ss'.length hr
      have hdm' := Nat.div_add_mod (ss' ++ [s]).length r
      have hmlt' := Nat.mod_lt (ss' ++ [s]).length hr
      have hlen : (ss' ++ [s]).length = ss'.length + 1 := by simp
      have hpl : p.pending.length = ss'.length % r := by rw [i3, List.length_drop]; omega
      unfold addSentence
      rw [if_pos (by omega)]
      simp only
      have hpl1 : (p.pending ++ [s]).length = ss'.length % r + 1 := by simp [hpl]
      by_cases hb : (p.pending ++ [s]).length = p.retain
      · rw [if_pos hb]
        have hq : (ss' ++ [s]).length / r = ss'.length / r + 1 := by
          rw [hlen]
          have : ss'.length + 1 = r * (ss'.length / r + 1) := by rw [Nat.mul_add]; omega
          rw [this, Nat.mul_div_cancel_left _ hr]
        have hm : r * ((ss' ++ [s]).length / r) = (ss' ++ [s]).length := by
          rw [hq, Nat.mul_add, hlen]; omega
        have hT : taken r (ss' ++ [s]) = taken r ss' ++ (p.pending ++ [s]).flatten := by
          unfold taken
          rw [hm, List.take_length, i3, ← List.flatten_append, ← List.append_assoc, List.take_append_drop]
        refine ⟨?_, i2, ?_⟩
        · rw [hT]
          refine cnt_batch i1 _ ?_
          intro x hx
          rcases List.mem_append.1 hx with hx | hx
          · rw [i3] at hx; exact hs x (List.mem_append.2 (Or.inl (List.mem_of_mem_drop hx)))
          · exact hs x (List.mem_append.2 (Or.inr hx))
        · rw [hm, List.drop_length]
      · rw [if_neg hb]
        have hlt : ss'.length % r + 1 < r := by omega
        have hq : (ss' ++ [s]).length / r = ss'.length / r := by
          rw [hlen]
          have : ss'.length + 1 = r * (ss'.length / r) + (ss'.length % r + 1) := by omega
          rw [this, Nat.mul_add_div hr, Nat.div_eq_of_lt hlt]; rfl
        have hle : r * (ss'.length / r) ≤ ss'.length := by omega
        refine ⟨?_, i2, ?_⟩
        · have : taken r (ss' ++ [s]) = taken r ss' := by
            unfold taken
            rw [hq, List.take_append_of_le_length hle]
          rw [this]; exact i1
        · rw [hq, List.drop_append_of_le_length hle, i3]
  exact key ss.length ss rfl hs

theorem putDesc_sorted (c : Nat) (s : Word) (l : List (Nat × Word)) (h : l.Pairwise (fun a b => a.1 > b.1)) :
    (putDesc c s l).Pairwise (fun a b => a.1 > b.1) ∧
    (∀ e, e ∈ putDesc c s l → e = (c, s) ∨ e ∈ l) ∧ (c, s) ∈ putDesc c s l ∧
    (∀ e ∈ l, ∃ e' ∈ putDesc c s l, e'.1 = e.1) := by
  induction l with
  | nil => simp [putDesc]
  | cons e r ih =>
    obtain ⟨h1, h2⟩ := List.pairwise_cons.1 h
    obtain ⟨i1, i2, i3, i4⟩ := ih h2
    rw [putDesc]
    split
    · rename_i hc
      refine ⟨List.pairwise_cons.2 ⟨?_, h⟩, ?_, List.mem_cons_self, ?_⟩
      · intro x hx
        rcases List.mem_cons.1 hx with rfl | hx
        · exact hc
        · have := h1 x hx; simp only; omega
      · intro x hx; rcases List.mem_cons.1 hx with rfl | hx
        · exact Or.inl rfl
        · exact Or.inr hx
      · intro x hx; exact ⟨x, List.mem_cons_of_mem _ hx, rfl⟩
    · split
      · rename_i hc
        refine ⟨List.pairwise_cons.2 ⟨?_, h2⟩, ?_, List.mem_cons_self, ?_⟩
        · intro x hx; have := h1 x hx; simp only; omega
        · intro x hx; rcases List.mem_cons.1 hx with rfl | hx
          · exact Or.inl rfl
          · exact Or.inr (List.mem_cons_of_mem _ hx)
        · intro x hx
          rcases List.mem_cons.1 hx with rfl | hx
          · exact ⟨(c, s), List.mem_cons_self, hc⟩
          · exact ⟨x, List.mem_cons_of_mem _ hx, rfl⟩
      · rename_i hc1 hc2
        refine ⟨List.pairwise_cons.2 ⟨?_, i1⟩, ?_, List.mem_cons_of_mem _ i3, ?_⟩
        · intro x hx
          rcases i2 x hx with rfl | hx
          · simp only; omega
          · exact h1 x hx
        · intro x hx; rcases List.mem_cons.1 hx with rfl | hx
          · exact Or.inr List.mem_cons_self
          · rcases i2 x hx with h | h
            · exact Or.inl h
            · exact Or.inr (List.mem_cons_of_mem _ h)
        · intro x hx
          rcases List.mem_cons.1 hx with rfl | hx
          · exact ⟨x, List.mem_cons_self, rfl⟩
          · obtain ⟨e', a, b⟩ := i4 x hx; exact ⟨e', List.mem_cons_of_mem _ a, b⟩

/-- The loop processes the entries below the input node (`A`) and stops at, or ignores, the others (`B`). -/
theorem suffLoop_spec (input : Word) (hin : input ≠ []) (A B : List (Word × Nat))
    (hA : ∀ e ∈ A, e.1.head? = input.getLast?) (hB : ∀ e ∈ B, e.1.head? ≠ input.getLast?) (out : List (Nat × Word))
    (ho : out.Pairwise (fun a b => a.1 > b.1)) :
    let R := suffLoop input (A ++ B) out
    R.Pairwise (fun a b => a.1 > b.1) ∧
    (∀ e ∈ R, e ∈ out ∨ ∃ a ∈ A, a.2 > 0 ∧ e = (a.2, a.1.tail)) ∧
    (∀ e ∈ out, ∃ e' ∈ R, e'.1 = e.1) ∧ (∀ a ∈ A, a.2 > 0 → ∃ e ∈ R, e.1 = a.2) := by
  induction A generalizing out with
  | nil =>
    have : ∀ B : List (Word × Nat), (∀ e ∈ B, e.1.head? ≠ input.getLast?) → suffLoop input B out = out := by
      intro B hB
      induction B with
      | nil => rfl
      | cons e B ih =>
        obtain ⟨ks, c⟩ := e
        rw [suffLoop]
        split
        · rw [if_pos ⟨hin, hB _ List.mem_cons_self⟩]
        · exact ih (fun x hx => hB x (List.mem_cons_of_mem _ hx))
    simp only [List.nil_append, this B hB]
    exact ⟨ho, fun e he => Or.inl he, fun e he => ⟨e, he, rfl⟩, fun a ha => by cases ha⟩
  | cons a A ih =>
    obtain ⟨ks, c⟩ := a
    have hA' : ∀ e ∈ A, e.1.head? = input.getLast? := fun e he => hA e (List.mem_cons_of_mem _ he)
    simp only [List.cons_append]
    rw [suffLoop]
    by_cases hc : c > 0
    · rw [if_pos hc, if_neg (fun hh => hh.2 (hA (ks, c) List.mem_cons_self))]
      obtain ⟨p1, p2, p3, p4⟩ := putDesc_sorted c ks.tail out ho
      obtain ⟨i1, i2, i3, i4⟩ := ih hA' (putDesc c ks.tail out) p1
      refine ⟨i1, ?_, ?_, ?_⟩
      · intro e he
        rcases i2 e he with h | ⟨a, ha, h⟩
        · rcases p2 e h with h | h
          · exact Or.inr ⟨(ks, c), List.mem_cons_self, hc, h⟩
          · exact Or.inl h
        · exact Or.inr ⟨a, List.mem_cons_of_mem _ ha, h⟩
      · intro e he
        obtain ⟨e', h1, h2⟩ := p4 e he
        obtain ⟨e'', h3, h4⟩ := i3 e' h1
        exact ⟨e'', h3, by rw [h4, h2]⟩
      · intro a ha hpos
        rcases List.mem_cons.1 ha with rfl | ha
        · exact i3 _ p3
        · exact i4 a ha hpos
    · rw [if_neg hc]
      obtain ⟨i1, i2, i3, i4⟩ := ih hA' out ho
      refine ⟨i1, ?_, i3, ?_⟩
      · intro e he
        rcases i2 e he with h | ⟨a, ha, h⟩
        · exact Or.inl h
        · exact Or.inr ⟨a, List.mem_cons_of_mem _ ha, h⟩
      · intro a ha hpos
        rcases List.mem_cons.1 ha with rfl | ha
        · exact absurd hpos hc
        · exact i4 a ha hpos

/-- The node reached by a non-empty sequence. -/
theorem getState_spec (t : T Char Nat) (hw : WF t) (ks : Word) (hk : ks ≠ []) :
    getState t ks = .nil ∨ ∃ k d c n, getState t ks = .node k d c n ∧ WF (.node k d c n) ∧ ks.getLast? = some k ∧
      find t ks = some d ∧ ∀ r, r ≠ [] → find t (ks ++ r) = find c r := by
  induction t generalizing ks with
  | nil => cases ks <;> exact Or.inl rfl
  | raw => exact absurd hw (by simp [WF])
  | node k0 d0 c0 n0 ihc ihn =>
    cases ks with
    | nil => exact absurd rfl hk
    | cons k ks =>
      rw [getState]
      by_cases h : k0 = k
      · subst h
        rw [if_pos rfl]
        cases ks with
        | nil =>
          refine Or.inr ⟨k0, d0, c0, n0, rfl, hw, rfl, by simp [find_node], ?_⟩
          intro r hr
          rw [List.singleton_append, find_node, if_pos rfl, if_neg hr]
        | cons a r =>
          simp only [List.isEmpty_cons, Bool.false_eq_true, if_false]
          rcases ihc hw.1 (a :: r) (by simp) with h | ⟨k, d, c, n, e1, e2, e3, e4, e5⟩
          · exact Or.inl h
          · refine Or.inr ⟨k, d, c, n, e1, e2, by rw [List.getLast?_cons_cons]; exact e3, ?_, ?_⟩
            · rw [find_node, if_pos rfl, if_neg (by simp)]; exact e4
            · intro r' hr'
              rw [List.cons_append, find_node, if_pos rfl, if_neg (by simp)]; exact e5 r' hr'
      · rw [if_neg h]
        rcases ihn hw.2.1 (k :: ks) (by simp) with h' | ⟨k1, d, c, n, e1, e2, e3, e4, e5⟩
        · exact Or.inl h'
        · refine Or.inr ⟨k1, d, c, n, e1, e2, e3, ?_, ?_⟩
          · rw [find_node, if_neg h]; exact e4
          · intro r hr
            have := e5 r hr
            rw [List.cons_append] at this ⊢
            rw [find_node, if_neg h]; exact this

theorem suffixList_spec {t : T Char Nat} {W : List Word} (h : Cnt t W) (p : WP) (hp : p.trie = t) (input : Word)
    (hin : input ≠ []) :
    (getSuffixList p input).Pairwise (fun a b => a.1 > b.1) ∧
    (∀ e ∈ getSuffixList p input, e.1 > 0 ∧ W.count (input ++ e.2) = e.1) ∧
    (∀ w ∈ W, input <+: w → ∃ e ∈ getSuffixList p input, e.1 = W.count w) := by
  unfold getSuffixList
  rw [hp]
  simp only
  have hnone : getState t input = .nil → (∀ w ∈ W, ¬ input <+: w) := by
    intro hg w hw hpre
    have := h.val input hin
    rw [if_pos ⟨w, hw, hpre⟩] at this
    unfold find at this
    rw [hg] at this; cases this
  have hnil : getState t input = .nil → (if isNil (getState t input) then ([] : List (Nat × Word)) else
      suffLoop input (collect (size (getState t input)) (begin (getState t input))) []) = [] := by
    intro hg; rw [hg]; rfl
  have hcase : getState t input = .nil ∨ ∃ k d c n, getState t input = .node k d c n ∧ WF (.node k d c n) ∧
      input.getLast? = some k ∧ find t input = some d ∧ ∀ r, r ≠ [] → find t (input ++ r) = find c r := by
    rcases wf_of_ok h.ok with ⟨d, rfl⟩ | hw
    · cases input with
      | nil => exact absurd rfl hin
      | cons a r => exact Or.inl rfl
    · exact getState_spec t hw input hin
  rcases hcase with hg | ⟨k, d, c, n, e1, e2, e3, e4, e5⟩
  · rw [hnil hg]
    refine ⟨List.Pairwise.nil, (fun e he => by cases he), ?_⟩
    intro w hw hpre
    exact absurd hpre (hnone hg w hw)
  · rw [e1, if_neg (by simp [isNil]), collect_begin _ _ (Nat.le_refl _)]
    have hsplit : post [] (.node k d c n) = (post [k] c ++ [([k], d)]) ++ post [] n := by simp [post]
    rw [hsplit]
    obtain ⟨w1, w2, w3⟩ := e2
    have hmemA : ∀ x v, (x, v) ∈ post [k] c ++ [([k], d)] ↔ ∃ r, x = k :: r ∧ find t (input ++ r) = some v := by
      intro x v
      rw [List.mem_append, mem_post _ _ w1]
      constructor
      · rintro (⟨ks, a, b, e⟩ | hx)
        · exact ⟨ks, by simpa using b, by rw [e5 ks a]; exact e⟩
        · have := List.mem_singleton.1 hx
          injection this with ha hb
          exact ⟨[], ha, by rw [List.append_nil, e4, hb]⟩
      · rintro ⟨r, ha, hb⟩
        cases r with
        | nil =>
          rw [List.append_nil, e4] at hb
          injection hb with hb
          exact Or.inr (by rw [ha, hb]; exact List.mem_singleton.2 rfl)
        | cons a r => exact Or.inl ⟨a :: r, by simp, by simpa using ha, by rw [← e5 _ (by simp)]; exact hb⟩
    obtain ⟨s1, s2, s3, s4⟩ := suffLoop_spec input hin (post [k] c ++ [([k], d)]) (post [] n)
      (by
        rintro ⟨x, v⟩ hx
        obtain ⟨r, ha, _⟩ := (hmemA x v).1 hx
        rw [ha, e3]; rfl)
      (by
        rintro ⟨x, v⟩ hx
        obtain ⟨ks, a, b, e⟩ := (mem_post _ _ w2 x v).1 hx
        simp at b; subst b
        cases x with
        | nil => exact absurd rfl a
        | cons a r =>
          rw [e3]
          intro hh
          injection hh with hh
          exact w3 (by rw [← hh]; exact find_key_mem e)) [] List.Pairwise.nil
    have hval : ∀ r v, find t (input ++ r) = some v → v = W.count (input ++ r) := by
      intro r v hf
      rw [h.val _ (by simp [hin])] at hf
      split at hf
      · injection hf with hf; exact hf.symm
      · cases hf
    refine ⟨s1, ?_, ?_⟩
    · intro e he
      rcases s2 e he with hh | ⟨⟨x, v⟩, ha, hpos, rfl⟩
      · cases hh
      · obtain ⟨r, hx, hf⟩ := (hmemA x v).1 ha
        refine ⟨hpos, ?_⟩
        simp only [hx, List.tail_cons]
        exact (hval r v hf).symm
    · rintro w hw ⟨r, rfl⟩
      have hf : find t (input ++ r) = some (W.count (input ++ r)) := by
        rw [h.val _ (by simp [hin]), if_pos ⟨_, hw, List.prefix_refl _⟩]
      have := s4 (k :: r, W.count (input ++ r)) ((hmemA _ _).2 ⟨r, rfl, hf⟩) (List.count_pos_iff.2 hw)
      exact this

/-! ### C48: suffix lists -/

/-- C48: for a non-empty input, after adding any sentences (of non-empty words, with any batch size), `getSuffixList`
lists counts in strictly decreasing order; each entry completes the input to a word that was added exactly that many
times; and for every added word extending the input there is an entry with its count. -/
theorem C48 (r : Nat) (hr : 0 < r) (ss : List Sentence) (hs : ∀ s ∈ ss, ∀ w ∈ s, w ≠ []) (input : Word)
    (hin : input ≠ []) :
    let l := getSuffixList (ss.foldl addSentence (new r)) input
    l.Pairwise (fun a b => a.1 > b.1) ∧
    (∀ e ∈ l, e.1 > 0 ∧ (taken r ss).count (input ++ e.2) = e.1) ∧
    (∀ w ∈ taken r ss, input <+: w → ∃ e ∈ l, e.1 = (taken r ss).count w) :=
  suffixList_spec (addAll_spec r hr ss hs).1 _ rfl input hin

/-- With the default batch size every sentence counts. -/
theorem taken_one (ss : List Sentence) : taken 1 ss = ss.flatten := by simp [taken]

/-! ### C49: best suffix -/

/-- C49: `getBestSuffix` completes a non-empty input to a most frequent word with that prefix, and returns (0,"")
exactly when there is none. -/
theorem C49 (r : Nat) (hr : 0 < r) (ss : List Sentence) (hs : ∀ s ∈ ss, ∀ w ∈ s, w ≠ []) (input : Word)
    (hin : input ≠ []) :
    let b := getBestSuffix (ss.foldl addSentence (new r)) input
    ((∃ w ∈ taken r ss, input <+: w) →
      b.1 > 0 ∧ (taken r ss).count (input ++ b.2) = b.1 ∧ ∀ w, input <+: w → (taken r ss).count w ≤ b.1) ∧
    ((¬ ∃ w ∈ taken r ss, input <+: w) → b = (0, [])) := by
  obtain ⟨h1, h2, h3⟩ := C48 r hr ss hs input hin
  simp only
  unfold getBestSuffix
  generalize getSuffixList (ss.foldl addSentence (new r)) input = l at h1 h2 h3
  cases l with
  | nil =>
    refine ⟨?_, fun _ => rfl⟩
    rintro ⟨w, hw, hp⟩
    obtain ⟨e, he, _⟩ := h3 w hw hp
    cases he
  | cons b l =>
    obtain ⟨p1, p2⟩ := List.pairwise_cons.1 h1
    obtain ⟨q1, q2⟩ := h2 b List.mem_cons_self
    simp only [List.head?_cons, Option.getD_some]
    refine ⟨fun _ => ⟨q1, q2, ?_⟩, ?_⟩
    · intro w hp
      by_cases hw : w ∈ taken r ss
      · obtain ⟨e, he, hv⟩ := h3 w hw hp
        rw [← hv]
        rcases List.mem_cons.1 he with rfl | he
        · exact Nat.le_refl _
        · exact Nat.le_of_lt (p1 e he)
      · rw [List.count_eq_zero.2 hw]; exact Nat.zero_le _
    · intro hn
      exact absurd ⟨input ++ b.2, List.count_pos_iff.1 (by rw [q2]; exact q1), List.prefix_append _ _⟩ hn

/-- Non-vacuity. -/
example : getBestSuffix ([[['a', 'b'], ['a', 'c']], [['a', 'c'], ['b']]].foldl addSentence (new 1)) ['a'] = (2, ['c']) := by
  decide +kernel

/-! ### C50: only added words are predicted -/

/-- Words added since the last `clear()`. -/
def added (W : List Word) : List Op → List Word
  | [] => W
  | .add s :: os => added (W ++ s) os
  | .clear :: os => added [] os

/-- C50 in full: whatever the history of additions and `clear()` calls and whatever the input, a proposed suffix
completes the input to a word added since the last `clear()`. -/
def C50_full : Prop := ∀ (os : List Op) (input : Word),
  (getBestSuffix (run (new 1) os) input).1 > 0 → input ++ (getBestSuffix (run (new 1) os) input).2 ∈ added [] os

/-- After `clear()` the root of the trie keeps a stale count: the predictor proposes "b", which was not added. -/
theorem C50_counterexample : ¬ C50_full := fun h =>
  absurd (h [.add [['a']], .clear, .add [['b', 'c']]] ['b'] (by decide +kernel)) (by decide +kernel)

/-- With an empty input the first letter of every word is dropped. -/
theorem C50_counterexample_empty_input : ∃ ss : List Sentence,
    (getBestSuffix (ss.foldl addSentence (new 1)) []).1 > 0 ∧
    [] ++ (getBestSuffix (ss.foldl addSentence (new 1)) []).2 ∉ taken 1 ss :=
  ⟨[[['a', 'b']]], by decide +kernel⟩

/-- Adding an empty word increments the count of the first letter of the first word ever added. -/
theorem C50_counterexample_empty_word : ∃ ss : List Sentence, ∃ input : Word, input ≠ [] ∧
    (getBestSuffix (ss.foldl addSentence (new 1)) input).1 > 0 ∧
    input ++ (getBestSuffix (ss.foldl addSentence (new 1)) input).2 ∉ taken 1 ss :=
  ⟨[[['a', 'b'], [], []]], ['a'], by decide +kernel⟩

/-- C50 for non-empty words and inputs, when `clear()` is not used. -/
theorem C50_partial (r : Nat) (hr : 0 < r) (ss : List Sentence) (hs : ∀ s ∈ ss, ∀ w ∈ s, w ≠ []) (input : Word)
    (hin : input ≠ []) (hc : (getBestSuffix (ss.foldl addSentence (new r)) input).1 > 0) :
    input ++ (getBestSuffix (ss.foldl addSentence (new r)) input).2 ∈ ss.flatten := by
  obtain ⟨h1, h2⟩ := C49 r hr ss hs input hin
  by_cases he : ∃ w ∈ taken r ss, input <+: w
  · obtain ⟨a, b, _⟩ := h1 he
    have hm : input ++ (getBestSuffix (ss.foldl addSentence (new r)) input).2 ∈ taken r ss :=
      List.count_pos_iff.1 (by rw [b]; exact a)
    unfold taken at hm
    obtain ⟨s, hs1, hs2⟩ := List.mem_flatten.1 hm
    exact List.mem_flatten.2 ⟨s, List.mem_of_mem_take hs1, hs2⟩
  · rw [h2 he] at hc; exact absurd hc (by decide)

end Thot.WordPred
