import Verif.Dict.Lemmas
/-! Keys of the LevelDB dictionary: order, range of a source phrase, decoding. -/
namespace Thot.Dict
open Thot.Awk (Str fields)

/-- A word of printable characters: not empty, every character after the space. -/
def Plain (w : Str) : Prop := w ≠ [] ∧ ∀ c ∈ w, ' ' < c

/-- The words of a source phrase, each followed by a space. -/
def pre (s : Phrase) : Str := s.flatMap (· ++ [' '])
/-- The words of a target phrase, each after a space. -/
def suf (t : Phrase) : Str := t.flatMap (' ' :: ·)

theorem join_eq (a : Str) (ws : Phrase) : StrProc.stringVectorToString (a :: ws) = a ++ suf ws := by
  show StrProc.joinLoop a ws = _
  induction ws generalizing a with
  | nil => simp [StrProc.joinLoop, suf]
  | cons w ws ih =>
    show StrProc.joinLoop (a ++ ' ' :: w) ws = _
    rw [ih]
    simp [suf]

theorem join_pre (s : Phrase) (a : Str) (t : Phrase) : StrProc.stringVectorToString (s ++ a :: t) = pre s ++ (a ++ suf t) := by
  cases s with
  | nil => exact join_eq a t
  | cons w s =>
    rw [List.cons_append, join_eq]
    induction s generalizing w with
    | nil => simp [suf, pre]
    | cons w' s ih =>
      have := ih w'
      simp only [suf, pre, List.cons_append, List.flatMap_cons, List.append_assoc] at this ⊢
      rw [this]
      simp

theorem key_eq (s t : Phrase) : key s t = pre s ++ '\x01' :: suf t := by
  unfold key
  rw [List.append_assoc]
  exact join_pre s sep t

/-! Order -/

theorem append_lt_iff {α : Type} [LinearOrder α] (p a b : List α) : p ++ a < p ++ b ↔ a < b := by
  induction p with
  | nil => rfl
  | cons x p ih =>
    show x :: (p ++ a) < x :: (p ++ b) ↔ _
    rw [List.cons_lt_cons_iff]
    constructor
    · rintro (h | ⟨_, h⟩)
      · exact absurd h (lt_irrefl _)
      · exact ih.1 h
    · intro h; exact .inr ⟨rfl, ih.2 h⟩

theorem word_lt {w w' : Str} (h : w < w') (hw' : ∀ c ∈ w', ' ' < c) (t t' : Phrase) : w ++ suf t < w' ++ suf t' := by
  induction w generalizing w' with
  | nil =>
    cases w' with
    | nil => exact absurd h (lt_irrefl _)
    | cons c w' =>
      cases t with
      | nil => exact List.nil_lt_cons _ _
      | cons v t =>
        show ' ' :: _ < c :: _
        exact List.cons_lt_cons_iff.2 (.inl (hw' c List.mem_cons_self))
  | cons x w ih =>
    cases w' with
    | nil => exact absurd h (List.not_lt_nil _)
    | cons c w' =>
      rcases List.cons_lt_cons_iff.1 h with h | ⟨h, h2⟩
      · exact List.cons_lt_cons_iff.2 (.inl h)
      · exact List.cons_lt_cons_iff.2 (.inr ⟨h, ih h2 (fun c hc => hw' c (List.mem_cons_of_mem _ hc))⟩)

theorem suf_mono {t t' : Phrase} (h : t < t') (hp : ∀ w ∈ t', ∀ c ∈ w, ' ' < c) : suf t < suf t' := by
  induction t generalizing t' with
  | nil =>
    cases t' with
    | nil => exact absurd h (lt_irrefl _)
    | cons w t' => exact List.nil_lt_cons _ _
  | cons w t ih =>
    cases t' with
    | nil => exact absurd h (List.not_lt_nil _)
    | cons w' t' =>
      show ' ' :: (w ++ suf t) < ' ' :: (w' ++ suf t')
      refine List.cons_lt_cons_iff.2 (.inr ⟨rfl, ?_⟩)
      rcases List.cons_lt_cons_iff.1 h with h | ⟨h, h2⟩
      · exact word_lt h (hp w' List.mem_cons_self) t t'
      · rw [h, append_lt_iff]
        exact ih h2 (fun v hv => hp v (List.mem_cons_of_mem _ hv))

/-! Injectivity -/

theorem sep_notin_pre (s : Phrase) (h : ∀ w ∈ s, Plain w) : '\x01' ∉ pre s := by
  intro hc
  simp only [pre, List.mem_flatMap, List.mem_append, List.mem_singleton] at hc
  obtain ⟨w, hw, hc | hc⟩ := hc
  · exact absurd ((h w hw).2 _ hc) (by decide)
  · exact absurd hc (by decide)

theorem char_split {a b x y : Str} (c : Char) (h : a ++ c :: x = b ++ c :: y) (ha : c ∉ a) (hb : c ∉ b) : a = b ∧ x = y := by
  induction a generalizing b with
  | nil =>
    cases b with
    | nil => simpa using h
    | cons z b =>
      simp only [List.nil_append, List.cons_append, List.cons.injEq] at h
      exact absurd (by rw [h.1]; exact List.mem_cons_self) hb
  | cons z a ih =>
    cases b with
    | nil =>
      simp only [List.nil_append, List.cons_append, List.cons.injEq] at h
      exact absurd (by rw [h.1]; exact List.mem_cons_self) ha
    | cons z' b =>
      simp only [List.cons_append, List.cons.injEq] at h
      have := ih h.2 (fun hh => ha (List.mem_cons_of_mem _ hh)) (fun hh => hb (List.mem_cons_of_mem _ hh))
      exact ⟨by rw [h.1, this.1], this.2⟩

theorem space_notin {w : Str} (h : Plain w) : ' ' ∉ w := fun hc => lt_irrefl _ (h.2 _ hc)

theorem pre_inj {s s' : Phrase} (h : ∀ w ∈ s, Plain w) (h' : ∀ w ∈ s', Plain w) (he : pre s = pre s') : s = s' := by
  induction s generalizing s' with
  | nil =>
    cases s' with
    | nil => rfl
    | cons w s' => simp [pre] at he
  | cons w s ih =>
    cases s' with
    | nil => simp [pre] at he
    | cons w' s' =>
      have e : w ++ ' ' :: pre s = w' ++ ' ' :: pre s' := by simpa [pre] using he
      have := char_split ' ' e (space_notin (h w List.mem_cons_self)) (space_notin (h' w' List.mem_cons_self))
      rw [this.1, ih (fun v hv => h v (List.mem_cons_of_mem _ hv)) (fun v hv => h' v (List.mem_cons_of_mem _ hv)) this.2]

theorem key_inj {s s' t t' : Phrase} (h : ∀ w ∈ s, Plain w) (h' : ∀ w ∈ s', Plain w) (ht : ∀ w ∈ t, Plain w) (ht' : ∀ w ∈ t', Plain w)
    (he : key s t = key s' t') : s = s' ∧ t = t' := by
  rw [key_eq, key_eq] at he
  have := char_split _ he (sep_notin_pre s h) (sep_notin_pre s' h')
  refine ⟨pre_inj h h' this.1, ?_⟩
  rcases lt_trichotomy t t' with hl | hl | hl
  · have := suf_mono hl (fun w hw => (ht' w hw).2)
    simp_all
  · exact hl
  · have := suf_mono hl (fun w hw => (ht w hw).2)
    simp_all

/-! Range -/

theorem between {p k : Str} (h1 : ¬ k < p ++ ['\x01']) (h2 : k < p ++ ['\x02']) : ∃ x, k = p ++ '\x01' :: x := by
  induction p generalizing k with
  | nil =>
    cases k with
    | nil => exact absurd (List.nil_lt_cons _ _) h1
    | cons c k =>
      refine ⟨k, ?_⟩
      have ha : ¬ c < '\x01' := fun hc => h1 (List.cons_lt_cons_iff.2 (.inl hc))
      have hb : c < '\x02' := by
        rcases List.cons_lt_cons_iff.1 h2 with h | ⟨_, h⟩
        · exact h
        · exact absurd h (List.not_lt_nil _)
      have : c = '\x01' := by
        have e1 : ¬ c.toNat < 1 := ha
        have e2 : c.toNat < 2 := hb
        have e3 : c.toNat = ('\x01' : Char).toNat := by show c.toNat = 1; omega
        exact Char.toNat_inj.1 e3
      rw [this]; rfl
  | cons x p ih =>
    cases k with
    | nil => exact absurd (List.nil_lt_cons _ _) h1
    | cons c k =>
      have hcx : c = x := by
        rcases lt_trichotomy c x with h | h | h
        · exact absurd (List.cons_lt_cons_iff.2 (.inl h)) h1
        · exact h
        · rcases List.cons_lt_cons_iff.1 h2 with h' | ⟨h', _⟩
          · exact absurd (lt_trans h h') (lt_irrefl _)
          · exact h'
      subst hcx
      obtain ⟨y, hy⟩ := ih (k := k) (fun hh => h1 (List.cons_lt_cons_iff.2 (.inr ⟨rfl, hh⟩))) (by
        rcases List.cons_lt_cons_iff.1 h2 with h | ⟨_, h⟩
        · exact absurd h (lt_irrefl _)
        · exact h)
      exact ⟨y, by rw [hy]; rfl⟩

theorem start_eq (s : Phrase) : StrProc.stringVectorToString (s ++ [sep]) = pre s ++ ['\x01'] := by
  rw [join_pre]; rfl
theorem fin_eq (s : Phrase) : StrProc.stringVectorToString (s ++ [sepNext]) = pre s ++ ['\x02'] := by
  rw [join_pre]; rfl

theorem range_iff {s s' t' : Phrase} (h : ∀ w ∈ s, Plain w) (h' : ∀ w ∈ s', Plain w) :
    (¬ key s' t' < pre s ++ ['\x01'] ∧ key s' t' < pre s ++ ['\x02']) ↔ s' = s := by
  constructor
  · rintro ⟨h1, h2⟩
    obtain ⟨x, hx⟩ := between h1 h2
    rw [key_eq] at hx
    exact pre_inj h' h (char_split _ hx (sep_notin_pre s' h') (sep_notin_pre s h)).1
  · rintro rfl
    rw [key_eq]
    refine ⟨?_, ?_⟩
    · rw [append_lt_iff]
      intro hc
      rcases List.cons_lt_cons_iff.1 hc with hc | ⟨_, hc⟩
      · exact lt_irrefl _ hc
      · exact List.not_lt_nil _ hc
    · rw [append_lt_iff]
      exact List.cons_lt_cons_iff.2 (.inl (by decide))

/-! Scan of a sorted list -/

theorem scan_filter {l : List Str} (hs : l.Pairwise (· < ·)) (a b : Str) :
    (l.dropWhile (fun k => decide (k < a))).takeWhile (fun k => decide (k < b)) = l.filter (fun k => decide (¬ k < a ∧ k < b)) := by
  induction l with
  | nil => rfl
  | cons x l ih =>
    obtain ⟨h1, h2⟩ := List.pairwise_cons.1 hs
    by_cases hx : x < a
    · rw [List.dropWhile_cons_of_pos (by simpa using hx), ih h2, List.filter_cons_of_neg (by simp [hx])]
    · rw [List.dropWhile_cons_of_neg (by simpa using hx)]
      have hge : ∀ y ∈ l, ¬ y < a := fun y hy hc => hx (lt_trans (h1 y hy) hc)
      have aux : ∀ m : List Str, (∀ y ∈ m, ¬ y < a) → m.Pairwise (· < ·) →
          m.takeWhile (fun k => decide (k < b)) = m.filter (fun k => decide (¬ k < a ∧ k < b)) := by
        intro m
        induction m with
        | nil => intros; rfl
        | cons y m ihm =>
          intro hm hp
          obtain ⟨p1, p2⟩ := List.pairwise_cons.1 hp
          have hya := hm y List.mem_cons_self
          by_cases hy : y < b
          · rw [List.takeWhile_cons_of_pos (by simpa using hy), List.filter_cons_of_pos (by simp [hya, hy]),
              ihm (fun z hz => hm z (List.mem_cons_of_mem _ hz)) p2]
          · rw [List.takeWhile_cons_of_neg (by simpa using hy), List.filter_cons_of_neg (by simp [hy])]
            symm
            rw [List.filter_eq_nil_iff]
            intro z hz hc
            have := (of_decide_eq_true hc).2
            exact hy (lt_trans (p1 z hz) this)
      refine aux (x :: l) ?_ hs
      intro y hy
      rcases List.mem_cons.1 hy with rfl | hy
      · exact hx
      · exact hge y hy

theorem decode_key {s t : Phrase} (h : ∀ w ∈ s, Plain w) (ht : ∀ w ∈ t, Plain w) : decode (s.length + 1) (key s t) = some t := by
  have hr : StrProc.stringToStringVector (key s t) = s ++ [sep] ++ t := by
    apply StrProc.C15_roundtrip
    intro w hw
    have aux : ∀ v, Plain v → v ≠ [] ∧ ∀ c ∈ v, c ≠ ' ' ∧ c ≠ '\t' := by
      intro v hv
      refine ⟨hv.1, fun c hc => ⟨?_, ?_⟩⟩
      · rintro rfl; exact lt_irrefl _ (hv.2 _ hc)
      · rintro rfl; exact absurd (hv.2 _ hc) (by decide)
    rcases List.mem_append.1 hw with hw | hw
    · rcases List.mem_append.1 hw with hw | hw
      · exact aux w (h w hw)
      · rw [List.mem_singleton] at hw
        subst hw
        decide
    · exact aux w (ht w hw)
  unfold decode
  rw [hr, if_pos (by simp)]
  congr 1
  have e : s.length + 1 = (s ++ [sep]).length := by simp
  rw [e, List.drop_left]

theorem sequence_some {α β : Type} (f : α → Option β) (g : α → β) (l : List α) (h : ∀ a ∈ l, f a = some (g a)) :
    sequence f l = some (l.map g) := by
  induction l with
  | nil => rfl
  | cons a l ih =>
    rw [sequence, h a List.mem_cons_self, ih (fun x hx => h x (List.mem_cons_of_mem _ hx))]
    rfl

end Thot.Dict
