import Verif.Cat.Model

namespace Thot.Cat

open Thot.StrProc

/-- The characters that are not blanks. -/
def nb (s : Str) : Str := s.filter (· != ' ')

def AllBlank (b : Str) : Prop := ∀ c ∈ b, c = ' '

theorem takeBlanks_spec (s : Str) : s = (takeBlanks s).1 ++ (takeBlanks s).2 ∧ AllBlank (takeBlanks s).1 ∧
    ((takeBlanks s).2 = [] ∨ ∃ c r, (takeBlanks s).2 = c :: r ∧ c ≠ ' ') := by
  induction s with
  | nil => exact ⟨rfl, by simp [AllBlank, takeBlanks], Or.inl rfl⟩
  | cons c cs ih =>
    rw [takeBlanks]
    split
    · rename_i h
      refine ⟨by simp [← ih.1], ?_, ih.2.2⟩
      intro x hx
      rcases List.mem_cons.1 hx with rfl | hx
      · exact h
      · exact ih.2.1 x hx
    · rename_i h
      exact ⟨rfl, by simp [AllBlank], Or.inr ⟨c, cs, rfl, h⟩⟩

theorem nb_allBlank {b : Str} (h : AllBlank b) : nb b = [] := by
  rw [nb, List.filter_eq_nil_iff]
  intro c hc
  simp [h c hc]

theorem nb_append (a b : Str) : nb (a ++ b) = nb a ++ nb b := List.filter_append _ _

theorem nb_cons_of {c : Char} (h : c ≠ ' ') (s : Str) : nb (c :: s) = c :: nb s := by
  rw [nb, List.filter_cons_of_pos (by simpa using h)]; rfl

theorem nb_blank (s : Str) : nb (' ' :: s) = nb s := by
  rw [nb, List.filter_cons_of_neg (by simp)]; rfl

theorem mergeLoop_nil (t : Str) : mergeLoop [] t = t := by
  induction t with
  | nil => rfl
  | cons a t ih => rw [mergeLoop, ih]

theorem mergeLoop_nil_right (p : Str) : mergeLoop p [] = p := by
  cases p <;> rfl

/-- One step of the merge, for any prefix. -/
theorem mergeLoop_cons (p : Str) (t : Char) (ts : Str) : mergeLoop p (t :: ts) =
    if t ≠ ' ' ∨ p = [] then (takeBlanks p).1 ++ t :: mergeLoop (takeBlanks p).2.tail ts
    else (takeBlanks p).1 ++ mergeLoop (takeBlanks p).2 ts := by
  cases p with
  | nil => rw [if_pos (Or.inr rfl), mergeLoop]; rfl
  | cons c cs =>
    rw [mergeLoop]
    by_cases h : t = ' '
    · rw [if_neg (by simpa using h), if_neg (by simp [h])]
    · rw [if_pos h, if_pos (Or.inl h)]

theorem merge_begins (t : Str) : ∀ p : Str, nb p <+: nb t → p <+: mergeLoop p t := by
  induction t with
  | nil =>
    intro p _
    rw [mergeLoop_nil_right]
    exact List.prefix_rfl
  | cons a t ih =>
    intro p h
    cases p with
    | nil => exact List.nil_prefix
    | cons c cs =>
      obtain ⟨p, hp⟩ : ∃ p, p = c :: cs := ⟨_, rfl⟩
      rw [← hp] at h ⊢
      have hne : p ≠ [] := by rw [hp]; simp
      rw [mergeLoop_cons]
      obtain ⟨e, h1, h2⟩ := takeBlanks_spec p
      have key : nb p = nb (takeBlanks p).2 := by
        conv => lhs; rw [e]
        rw [nb_append, nb_allBlank h1]; rfl
      have goal : ∀ r, (takeBlanks p).2 <+: r → p <+: (takeBlanks p).1 ++ r := by
        intro r hr
        conv => lhs; rw [e]
        exact (List.prefix_append_right_inj _).2 hr
      by_cases ha : a = ' '
      · rw [if_neg (by simp [ha, hne])]
        refine goal _ (ih _ ?_)
        rw [key, ha, nb_blank] at h
        exact h
      · rw [if_pos (Or.inl ha)]
        refine goal _ ?_
        rcases h2 with h2 | ⟨d, r, h2, hd⟩
        · rw [h2]; exact List.nil_prefix
        · rw [key, h2, nb_cons_of ha, nb_cons_of hd, List.cons_prefix_cons] at h
          rw [h2, List.tail_cons, ← h.1]
          exact List.cons_prefix_cons.2 ⟨rfl, ih r h.2⟩

def NoTab (s : Str) : Prop := '\t' ∉ s

theorem flatten_tokens {s : Str} (h : NoTab s) : (stringToStringVector s).flatten = nb s := by
  rw [(C15_token_facts s).2, nb]
  apply List.filter_congr
  intro c hc
  have : c ≠ '\t' := fun e => h (e ▸ hc)
  simp [this]

theorem nb_prefix_of_isPrefix {p t : Str} (hp : NoTab p) (ht : NoTab t)
    (h : isPrefixStrVec (stringToStringVector p) (stringToStringVector t) = true) : nb p <+: nb t := by
  rw [← flatten_tokens hp, ← flatten_tokens ht]
  rcases (C16_isPrefixStrVec _ _).1 h with h | ⟨i, l, x, r, h1, h2⟩
  · rw [h]; exact List.nil_prefix
  · rw [h1, h2]
    exact ⟨x ++ r.flatten, by simp⟩

theorem robustMerge_begins {t p : Str} (hp : NoTab p) (ht : NoTab t) : p <+: robustMerge t p := by
  unfold robustMerge
  split
  · exact List.prefix_rfl
  · rename_i h
    exact merge_begins t p (nb_prefix_of_isPrefix hp ht (by simpa using h))

theorem overwrite_begins (r p : Str) : overwrite r p = p ++ r.drop p.length := by
  induction p generalizing r with
  | nil => cases r <;> rfl
  | cons c p ih =>
    cases r with
    | nil => rw [overwrite, ih]; simp
    | cons a r => rw [overwrite, ih]; simp

/-! ## The last word -/

theorem backTo_spec (s : Str) (n : Nat) : backTo s n ≤ n ∧ (∀ i, backTo s n < i → i ≤ n → s[i]? ≠ some ' ') ∧
    (backTo s n ≠ 0 → s[backTo s n]? = some ' ') := by
  induction n with
  | zero => exact ⟨Nat.le_refl _, fun i h1 h2 => absurd h1 (by omega), fun h => absurd rfl h⟩
  | succ n ih =>
    rw [backTo]
    split
    · rename_i h
      exact ⟨Nat.le_refl _, fun i h1 h2 => absurd h1 (by omega), fun _ => h⟩
    · rename_i h
      refine ⟨by omega, ?_, ih.2.2⟩
      intro i h1 h2
      by_cases hi : i = n + 1
      · rw [hi]; exact h
      · exact ih.2.1 i h1 (by omega)

/-- `w` is the last word of `s`: what follows the last blank. -/
def LastWord (s w : Str) : Prop := ' ' ∉ w ∧ ∃ u : Str, s = u ++ w ∧ (u = [] ∨ u.getLast? = some ' ')

theorem LastWord.unique {s w w' : Str} (h : LastWord s w) (h' : LastWord s w') : w = w' := by
  obtain ⟨h1, u, h2, h3⟩ := h
  obtain ⟨h1', u', h2', h3'⟩ := h'
  have key : ∀ {u w u' w' : Str}, ' ' ∉ w → ' ' ∉ w' → u ++ w = u' ++ w' → (u = [] ∨ u.getLast? = some ' ') →
      (u' = [] ∨ u'.getLast? = some ' ') → u.length ≤ u'.length → w = w' := by
    intro u w u' w' g1 g1' e g3 g3' hl
    obtain ⟨z, rfl⟩ : ∃ z, u' = u ++ z := by
      obtain ⟨z, hz⟩ := List.prefix_of_prefix_length_le (List.prefix_append u w) (e ▸ List.prefix_append u' w') hl
      exact ⟨z, hz.symm⟩
    rw [List.append_assoc, List.append_cancel_left_eq] at e
    cases z with
    | nil => exact e
    | cons c z =>
      exfalso
      rcases g3' with g | g
      · simp at g
      · rw [List.getLast?_append, List.getLast?_cons, Option.some_or, Option.some.injEq] at g
        apply g1
        rw [e]
        have : (c :: z).getLast (by simp) = ' ' := by
          rw [List.getLast_eq_getLastD]; cases z <;> simpa using g
        rw [← this]
        exact List.mem_append_left _ (List.getLast_mem _)
  by_cases hl : u.length ≤ u'.length
  · exact key h1 h1' (h2.symm.trans h2') h3 h3' hl
  · exact (key h1' h1 (h2'.symm.trans h2) h3' h3 (by omega)).symm

theorem lastPartial_spec (s : Str) : LastWord s (lastPartial s) := by
  obtain ⟨h1, h2, h3⟩ := backTo_spec s s.length
  have hnot : ∀ k, (∀ i, k ≤ i → i ≤ s.length → s[i]? ≠ some ' ') → ' ' ∉ s.drop k := by
    intro k hk hm
    obtain ⟨i, hi, he⟩ := List.getElem_of_mem hm
    rw [List.length_drop] at hi
    rw [List.getElem_drop] at he
    refine hk (k + i) (by omega) (by omega) ?_
    rw [List.getElem?_eq_getElem (by omega), he]
  unfold lastPartial skipBlank
  split
  · rename_i h
    refine ⟨hnot _ (fun i hi hi' => h2 i (by omega) hi'), s.take (backTo s s.length + 1), by simp, Or.inr ?_⟩
    have hlt : backTo s s.length < s.length := by
      rcases Nat.lt_or_ge (backTo s s.length) s.length with h' | h'
      · exact h'
      · rw [List.getElem?_eq_none h'] at h; cases h
    rw [List.getLast?_eq_getElem?, List.length_take, Nat.min_eq_left (by omega), Nat.add_sub_cancel,
      List.getElem?_take, if_pos (by omega)]
    exact h
  · rename_i h
    have h0 : backTo s s.length = 0 := by
      by_cases hb : backTo s s.length = 0
      · exact hb
      · exact absurd (h3 hb) h
    rw [h0] at h h2 ⊢
    refine ⟨hnot 0 (fun i _ hi' => ?_), [], by simp, Or.inl rfl⟩
    by_cases hi0 : i = 0
    · rw [hi0]; exact h
    · exact h2 i (by omega) hi'

theorem expand_begins (suf : List Str → Str → Str) (s : Str) : s <+: (expandLastWord suf s).2 := by
  unfold expandLastWord
  split
  · split
    · exact List.prefix_rfl
    · split
      · exact List.prefix_rfl
      · simp only
        split
        · exact ⟨_, by rw [List.append_assoc]⟩
        · exact ⟨_, rfl⟩
  · exact List.prefix_rfl

theorem expand_noTab {suf : List Str → Str → Str} (hs : ∀ h w, NoTab (suf h w)) {s : Str} (h : NoTab s) :
    NoTab (expandLastWord suf s).2 := by
  unfold expandLastWord
  split
  · split
    · exact h
    · split
      · exact h
      · simp only
        have := hs (predHist (stringToStringVector s)) (lastPartial s)
        split
        · unfold NoTab at *
          simp only [List.mem_append, List.mem_cons, List.not_mem_nil, or_false, not_or]
          exact ⟨⟨h, this⟩, by decide⟩
        · unfold NoTab at *
          simp only [List.mem_append, not_or]
          exact ⟨h, this⟩
  · exact h

theorem join_noTab {ws : List Str} (h : ∀ w ∈ ws, NoTab w) : NoTab (stringVectorToString ws) := by
  cases ws with
  | nil => simp [NoTab, stringVectorToString]
  | cons w ws =>
    simp only [stringVectorToString]
    have h0 := h w (by simp)
    have h1 : ∀ x ∈ ws, NoTab x := fun x hx => h x (List.mem_cons_of_mem _ hx)
    clear h
    induction ws generalizing w with
    | nil => exact h0
    | cons v ws ih =>
      rw [joinLoop]
      apply ih
      · unfold NoTab at *
        simp only [List.mem_append, List.mem_cons, not_or]
        exact ⟨h0, by decide, h1 v (by simp)⟩
      · exact fun x hx => h1 x (List.mem_cons_of_mem _ hx)

end Thot.Cat
