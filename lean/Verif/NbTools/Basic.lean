import Verif.NbTools.Model
/-!
Lemmas about words and separators.
-/
namespace Thot.NbTools

open Thot
open Thot.SentHandler (joinWords Word fields_join)
open Thot.Awk (fields cut)

/-! ### Words -/

theorem cut_append (a b : W) : cut ' ' (a ++ ' ' :: b) = cut ' ' a ++ cut ' ' b := by
  induction a with
  | nil => simp [cut]
  | cons c a ih =>
    rw [List.cons_append, cut, cut, ih]
    split
    · rfl
    · cases h : cut ' ' a with
      | nil => exact absurd h (Awk.cut_ne_nil ' ' a)
      | cons p ps => rfl

theorem fields_blank (a b : W) : fields ' ' (a ++ ' ' :: b) = fields ' ' a ++ fields ' ' b := by
  unfold fields; rw [cut_append, List.filter_append]

theorem fields_word {w : W} (h : Word w) : fields ' ' w = [w] := by
  have := fields_join (ws := [w]) (by simpa using h)
  exact this

theorem word_bars : Word bars := ⟨by decide, by decide⟩

theorem fields_fsep (a b : W) : fields ' ' (a ++ fsep ++ b) = fields ' ' a ++ bars :: fields ' ' b := by
  have e : a ++ fsep ++ b = a ++ ' ' :: (bars ++ ' ' :: b) := by simp [fsep, bars]
  rw [e, fields_blank, fields_blank, fields_word word_bars]; rfl

theorem fields_ne {s : W} (h : ∃ c ∈ s, c ≠ ' ') : fields ' ' s ≠ [] := by
  obtain ⟨c, hc, hn⟩ := h
  obtain ⟨a, b, rfl⟩ := List.append_of_mem hc
  intro he
  have : ∀ s : W, fields ' ' s = [] → ∀ c ∈ s, c = ' ' := by
    intro s
    induction s with
    | nil => intro _ c hc; cases hc
    | cons d s ih =>
      intro h c hc
      by_cases hd : d = ' '
      · subst hd
        rw [Awk.fields_sep] at h
        rcases List.mem_cons.1 hc with rfl | hc
        · rfl
        · exact ih h c hc
      · exfalso
        unfold fields at h
        rw [cut, if_neg hd] at h
        cases hcut : cut ' ' s with
        | nil => exact Awk.cut_ne_nil ' ' s hcut
        | cons p ps => rw [hcut] at h; simp at h
  exact hn (this _ he c (by simp))

/-! ### Separators -/

/-- The first separator after `f` is right behind it. -/
def Clean (sep f : W) : Prop := ¬ sep <:+: f ++ sep.dropLast

theorem prefix_infix {sep : W} {a b : W} (h : sep <+: a) (ha : a <:+: b) : sep <:+: b := h.isInfix.trans ha

theorem splitGo_skip (sep : W) : ∀ (p : W) (r : W), splitGo sep p.length (p ++ r) = splitGo sep 0 r := by
  intro p
  induction p with
  | nil => intro r; rfl
  | cons c p ih => intro r; exact ih r

theorem splitOn_cons (sep : W) (c : Char) (r : W) : splitOn sep (c :: r) =
    if sep.isPrefixOf (c :: r) then [] :: splitGo sep (sep.length - 1) r else consHead c (splitOn sep r) := rfl

theorem splitOn_clean {sep : W} (hs : sep ≠ []) : ∀ (f r : W), Clean sep f → splitOn sep (f ++ sep ++ r) = f :: splitOn sep r := by
  intro f
  induction f with
  | nil =>
    intro r _
    cases hsep : sep with
    | nil => exact absurd hsep hs
    | cons c p =>
      have hp : (c :: p).isPrefixOf (c :: (p ++ r)) = true := List.isPrefixOf_iff_prefix.2 (List.prefix_append (c :: p) r)
      rw [List.nil_append, List.cons_append, splitOn_cons, if_pos hp]
      have : splitGo (c :: p) ((c :: p).length - 1) (p ++ r) = splitGo (c :: p) 0 r := by
        rw [List.length_cons, Nat.add_sub_cancel]; exact splitGo_skip _ p r
      rw [this]; rfl
  | cons c f ih =>
    intro r hcl
    rw [List.cons_append, List.cons_append, splitOn_cons, if_neg]
    · have h2 : Clean sep f := fun h => hcl (h.trans ⟨[c], [], by simp⟩)
      rw [ih r h2]; rfl
    · intro hp
      have hp := List.isPrefixOf_iff_prefix.1 hp
      apply hcl
      have e : c :: (f ++ sep ++ r) = (c :: f ++ sep.dropLast) ++ (sep.getLast hs :: r) := by
        conv => lhs; rw [← List.dropLast_concat_getLast hs]
        simp
      rw [e] at hp
      refine (List.prefix_of_prefix_length_le hp (List.prefix_append _ _) ?_).isInfix
      have : sep.dropLast.length = sep.length - 1 := List.length_dropLast
      have h1 : 0 < sep.length := List.length_pos_iff.2 hs
      simp only [List.length_append, List.length_cons]
      omega

theorem splitOn_last {sep : W} : ∀ (f : W), ¬ sep <:+: f → splitOn sep f = [f] := by
  intro f
  induction f with
  | nil => intro _; rfl
  | cons c f ih =>
    intro h
    rw [splitOn_cons, if_neg fun hp => h (List.isPrefixOf_iff_prefix.1 hp).isInfix]
    rw [ih fun hi => h (hi.trans ⟨[c], [], by simp⟩)]; rfl

theorem clean_words {f : W} (h : bars ∉ fields ' ' f) : Clean fsep f := by
  rintro ⟨x, y, e⟩
  have hd : fsep.dropLast = ' ' :: bars := rfl
  rw [hd] at e
  have hy : y ≠ [] := by
    rintro rfl
    have := congrArg List.getLast? e
    rw [List.append_nil, show x ++ fsep = (x ++ [' ', '|', '|', '|']) ++ [' '] by simp [fsep], List.getLast?_concat,
      show f ++ ' ' :: bars = (f ++ [' ', '|', '|']) ++ ['|'] by simp [bars], List.getLast?_concat] at this
    exact absurd this (by decide)
  obtain ⟨y', z, rfl⟩ : ∃ y' z, y = y' ++ [z] := ⟨y.dropLast, y.getLast hy, (List.dropLast_concat_getLast hy).symm⟩
  have hz : z = '|' := by
    have := congrArg List.getLast? e
    rw [← List.append_assoc, List.getLast?_concat, show f ++ ' ' :: bars = (f ++ [' ', '|', '|']) ++ ['|'] by simp [bars],
      List.getLast?_concat] at this
    exact Option.some.inj this
  have h2 := congrArg (fields ' ') e
  rw [fields_fsep, fields_blank, fields_word word_bars] at h2
  have h3 : fields ' ' (y' ++ [z]) ≠ [] := fields_ne ⟨z, by simp, by rw [hz]; decide⟩
  have h4 := congrArg List.dropLast h2
  rw [List.dropLast_concat, List.dropLast_append_of_ne_nil (by simp), List.dropLast_cons_of_ne_nil h3] at h4
  exact h (by rw [← h4]; simp)

theorem no_fsep {f : W} (h : bars ∉ fields ' ' f) : ¬ fsep <:+: f := by
  rintro ⟨x, y, e⟩
  apply h
  rw [← e, fields_fsep]; simp

/-- An occurrence of a text without blanks is in one of the words. -/
theorem infix_blank {s a b : W} (hs : ' ' ∉ s) (h : s <:+: a ++ ' ' :: b) : s <:+: a ∨ s <:+: b := by
  induction a with
  | nil =>
    rcases List.infix_cons_iff.1 h with hp | hi
    · cases s with
      | nil => exact Or.inl List.nil_infix
      | cons c s =>
        obtain ⟨t, ht⟩ := hp
        cases ht
        exact absurd List.mem_cons_self hs
    · exact Or.inr hi
  | cons c a ih =>
    rw [List.cons_append] at h
    rcases List.infix_cons_iff.1 h with hp | hi
    · left
      by_cases hl : s.length ≤ (c :: a).length
      · rw [← List.cons_append] at hp
        exact (List.prefix_of_prefix_length_le hp (List.prefix_append _ _) hl).isInfix
      · exfalso
        apply hs
        rw [← List.cons_append] at hp
        obtain ⟨t, ht⟩ := hp
        have h1 : s = ((c :: a) ++ ' ' :: b).take s.length := by rw [← ht, List.take_left']; rfl
        rw [h1, List.take_append]
        have : s.length - (c :: a).length = (s.length - (c :: a).length - 1) + 1 := by omega
        rw [this, List.take_succ_cons]
        simp
    · rcases ih hi with h1 | h1
      · exact Or.inl (h1.trans ⟨[c], [], by simp⟩)
      · exact Or.inr h1

theorem infix_join {s : W} (hs : ' ' ∉ s) (hne : s ≠ []) : ∀ {ws : List W}, s <:+: joinWords ws → ∃ w ∈ ws, s <:+: w := by
  intro ws
  induction ws with
  | nil => intro h; exact absurd (List.infix_nil.1 h) hne
  | cons w ws ih =>
    intro h
    cases ws with
    | nil => exact ⟨w, List.mem_cons_self, h⟩
    | cons v ws =>
      rcases infix_blank hs (show s <:+: w ++ ' ' :: joinWords (v :: ws) from h) with h1 | h1
      · exact ⟨w, List.mem_cons_self, h1⟩
      · obtain ⟨u, hu, h2⟩ := ih h1
        exact ⟨u, List.mem_cons_of_mem _ hu, h2⟩

end Thot.NbTools
