import Verif.NbTools.Merge
/-!
C268: the segmentation of the entries of an n-best list.
-/
namespace Thot.NbTools

open Thot
open Thot.SentHandler (joinWords Word fields_join)
open Thot.Awk (fields)
open Thot.Vocab (showNat)

/-! ### Specification -/

/-- An arc of a word graph, with its score components and words. -/
structure GArc where
  o : Nat
  d : Nat
  score : W
  comps : List W
  words : List W

/-- The line of an arc. -/
def arcLine (a : GArc) : W :=
  showNat a.o ++ " ".toList ++ showNat a.d ++ " ".toList ++ a.score ++ " ||| ".toList ++ joinWords a.comps ++ " ||| ".toList ++ joinWords a.words

/-- Words that do not contain the separator. -/
def NoBars (s : List W) : Prop := ∀ w ∈ s, Word w ∧ ¬ "|||".toList <:+: w

def GArc.Ok (a : GArc) : Prop := NoBars [a.score] ∧ NoBars a.comps ∧ NoBars a.words

/-- A transition of an entry. -/
def transText (a : GArc) : W := showNat a.o ++ "->".toList ++ showNat a.d

/-- The coverage of a state: the source positions, from the last to the first. -/
def covText (c : List Bool) : W := (c.map fun b => if b then '1' else '0').reverse

/-- The line of a state in the index. -/
def idxLine (cov : Nat → List Bool) (i : Nat × W) : W := showNat i.1 ++ " ".toList ++ covText (cov i.1) ++ " ".toList ++ i.2

/-- An entry with the arcs of its path. -/
structure NbEntry where
  entry : Entry
  arcs : List GArc

/-- The transitions of the entry are its arcs, that are in the graph and whose states are in the index. -/
structure NbEntry.Ok (wg : List GArc) (idx : List (Nat × W)) (x : NbEntry) : Prop where
  entry : x.entry.Ok
  bars : NoBars [x.entry.score] ∧ NoBars x.entry.feats
  states : x.entry.states = some (x.arcs.map transText)
  ne : x.arcs ≠ []
  arcs : ∀ a ∈ x.arcs, a ∈ wg ∧ (∃ i ∈ idx, i.1 = a.o) ∧ ∃ i ∈ idx, i.1 = a.d

/-- A source position is translated by the arc. -/
def Covers (cov : Nat → List Bool) (a : GArc) (p : Nat) : Prop := (cov a.d)[p]? = some true ∧ (cov a.o)[p]? ≠ some true

/-- The first and the last position translated by the arc. -/
def SegmOf (cov : Nat → List Bool) (a : GArc) (s : Nat × Nat) : Prop :=
  Covers cov a s.1 ∧ Covers cov a s.2 ∧ ∀ p, Covers cov a p → s.1 ≤ p ∧ p ≤ s.2

/-- The segmentation: the source segment of every arc, and the number of target words up to every arc. -/
structure Segmentation (cov : Nat → List Bool) (arcs : List GArc) (ss : List (Nat × Nat)) (cuts : List Nat) : Prop where
  len : ss.length = arcs.length ∧ cuts.length = arcs.length
  segm : ∀ (i : Nat) a s, arcs[i]? = some a → ss[i]? = some s → SegmOf cov a s
  cut : ∀ (i : Nat) c, cuts[i]? = some c → c = ((arcs.take (i + 1)).flatMap (·.words)).length

/-- The text of the segmentation. -/
def segmText (ss : List (Nat × Nat)) (cuts : List Nat) : W :=
  joinWords (ss.map fun s => "( ".toList ++ showNat s.1 ++ " , ".toList ++ showNat s.2 ++ " )".toList) ++ " | ".toList ++ joinWords (cuts.map showNat)

/-- The segmentation is appended to every entry. -/
def GoodInfo (cov : Nat → List Bool) (xs : List NbEntry) (h : W) (out : List W) : Prop :=
  ∃ sc : List (List (Nat × Nat) × List Nat), sc.length = xs.length ∧
    (∀ (i : Nat) x p, xs[i]? = some x → sc[i]? = some p → Segmentation cov x.arcs p.1 p.2) ∧
    out = h :: List.zipWith (fun x p => entryLine x.entry ++ " ||| ".toList ++ segmText p.1 p.2) xs sc

/-- Full statement of C268. -/
def C268_full : Prop := ∀ (cov : Nat → List Bool) (wg : List GArc) (idx : List (Nat × W)) (xs : List NbEntry) (h g1 g2 i1 i2 : W),
  (∀ a ∈ wg, a.Ok ∧ ∃ p, Covers cov a p) → (∀ i ∈ idx, cov i.1 ≠ []) → (∀ x ∈ xs, x.Ok wg idx) →
  ∃ out, segmInfo (h :: xs.map fun x => entryLine x.entry) (g1 :: g2 :: wg.map arcLine) (i1 :: i2 :: idx.map (idxLine cov)) = some out ∧
    GoodInfo cov xs h out

/-! ### Texts -/

theorem word_showNat (n : Nat) : Word (showNat n) := by
  refine ⟨Vocab.showNat_ne_nil n, fun c hc => ?_⟩
  obtain ⟨m, rfl⟩ := Vocab.showNat_digits n c hc
  have h := (Vocab.digit_dig m).1
  refine ⟨?_, ?_, ?_⟩ <;> · intro e; rw [e] at h; exact absurd h (by decide)

theorem not_in_showNat {c : Char} (h : Vocab.isDig c = false) (n : Nat) : c ∉ showNat n := by
  intro hc
  obtain ⟨m, rfl⟩ := Vocab.showNat_digits n _ hc
  rw [(Vocab.digit_dig m).1] at h; cases h

theorem mem_of_infix {s t : W} (h : s <:+: t) {c : Char} (hc : c ∈ s) : c ∈ t := h.sublist.subset hc

theorem noBars_of_char {w : W} (h : '|' ∉ w) : ¬ bars <:+: w := fun hi => h (mem_of_infix hi (by decide))

theorem noBars_join {ws : List W} (h : NoBars ws) : ¬ bars <:+: joinWords ws := by
  intro hi
  obtain ⟨w, hw, hiw⟩ := infix_join (by decide) (by decide) hi
  exact (h w hw).2 hiw

theorem clean_bars {f : W} (h : ¬ bars <:+: f) : Clean bars (f ++ [' ']) := by
  intro hi
  rw [show f ++ [' '] ++ bars.dropLast = f ++ ' ' :: ['|', '|'] by simp [bars]] at hi
  rcases infix_blank (by decide) hi with hi | hi
  · exact h hi
  · have := hi.length_le
    exact absurd this (by decide)

theorem clean_bars_pre {f : W} (h : ¬ bars <:+: f) : Clean bars (' ' :: f ++ [' ']) := by
  apply clean_bars
  intro hi
  rcases infix_blank (a := []) (by decide) hi with hi | hi
  · exact absurd hi.length_le (by decide)
  · exact h hi

/-- The pieces between bars of a text with blanks around the bars. -/
theorem split_bars {a b r : W} (ha : ¬ bars <:+: a) (hb : ¬ bars <:+: b) :
    splitOn bars (a ++ fsep ++ b ++ fsep ++ r) = (a ++ [' ']) :: (' ' :: b ++ [' ']) :: splitOn bars (' ' :: r) := by
  have e : a ++ fsep ++ b ++ fsep ++ r = (a ++ [' ']) ++ bars ++ ((' ' :: b ++ [' ']) ++ bars ++ (' ' :: r)) := by simp [fsep, bars]
  rw [e, splitOn_clean (by decide) _ _ (clean_bars ha), splitOn_clean (by decide) _ _ (clean_bars_pre hb)]

theorem noBars_blank {f : W} (h : ¬ bars <:+: f) : ¬ bars <:+: (' ' :: f) := by
  intro hi
  rcases infix_blank (a := []) (by decide) hi with hi | hi
  · exact absurd hi.length_le (by decide)
  · exact h hi

theorem split_arc {a : GArc} (h : a.Ok) : splitOn bars (arcLine a) =
    [showNat a.o ++ ' ' :: (showNat a.d ++ ' ' :: a.score) ++ [' '], ' ' :: joinWords a.comps ++ [' '], ' ' :: joinWords a.words] := by
  have e : arcLine a = (showNat a.o ++ ' ' :: (showNat a.d ++ ' ' :: a.score)) ++ fsep ++ joinWords a.comps ++ fsep ++ joinWords a.words := by
    have e1 : " ".toList = [' '] := rfl
    have e2 : " ||| ".toList = fsep := rfl
    unfold arcLine
    rw [e1, e2]; simp
  rw [e, split_bars _ (noBars_join h.2.1), splitOn_last _ (noBars_blank (noBars_join h.2.2))]
  intro hi
  rcases infix_blank (by decide) hi with hi | hi
  · exact noBars_of_char (not_in_showNat (by decide) _) hi
  · rcases infix_blank (by decide) hi with hi | hi
    · exact noBars_of_char (not_in_showNat (by decide) _) hi
    · exact (h.1 _ (by simp)).2 hi

theorem transText_eq (a : GArc) : transText a = mkKey (showNat a.o) (showNat a.d) := rfl

theorem split_trans (a : GArc) : splitOn arrow (transText a) = [showNat a.o, showNat a.d] := by
  rw [transText_eq]
  unfold mkKey
  rw [splitOn_clean (by decide), splitOn_last]
  · intro hi
    exact not_in_showNat (c := '>') (by decide) _ (mem_of_infix hi (by decide))
  · intro hi
    have := mem_of_infix hi (c := '>') (by decide)
    rcases List.mem_append.1 this with h | h
    · exact not_in_showNat (c := '>') (by decide) _ h
    · exact absurd h (by decide)

theorem trans_inj {a b : GArc} (h : transText a = transText b) : a.o = b.o ∧ a.d = b.d := by
  have := congrArg (splitOn arrow) h
  rw [split_trans, split_trans] at this
  injection this with h1 h2
  injection h2 with h2 _
  exact ⟨PhrTools.showNat_inj h1, PhrTools.showNat_inj h2⟩

theorem noBars_trans (arcs : List GArc) : NoBars (arcs.map transText) := by
  intro w hw
  obtain ⟨a, _, rfl⟩ := List.mem_map.1 hw
  have hc : ∀ c ∈ transText a, Vocab.isDig c = true ∨ c = '-' ∨ c = '>' := by
    intro c hc
    have : c ∈ showNat a.o ++ ['-', '>'] ++ showNat a.d := hc
    simp only [List.mem_append, List.mem_cons, List.not_mem_nil, or_false] at this
    rcases this with (h | h | h) | h
    · obtain ⟨m, rfl⟩ := Vocab.showNat_digits _ _ h; exact Or.inl (Vocab.digit_dig m).1
    · exact Or.inr (Or.inl h)
    · exact Or.inr (Or.inr h)
    · obtain ⟨m, rfl⟩ := Vocab.showNat_digits _ _ h; exact Or.inl (Vocab.digit_dig m).1
  refine ⟨⟨?_, ?_⟩, ?_⟩
  · intro h
    have h1 : showNat a.o ++ ['-', '>'] ++ showNat a.d = [] := h
    have := congrArg List.length h1
    simp at this
  · intro c h
    rcases hc c h with h | rfl | rfl
    · refine ⟨?_, ?_, ?_⟩ <;> · rintro rfl; exact absurd h (by decide)
    · decide
    · decide
  · intro hi
    rcases hc '|' (mem_of_infix hi (by decide)) with h | h | h
    · exact absurd h (by decide)
    · exact absurd h (by decide)
    · exact absurd h (by decide)

/-! ### Loading -/

theorem loadWg_spec : ∀ (wg : List GArc) (m : List (W × W)), (∀ a ∈ wg, a.Ok) →
    ∃ m', loadWg (wg.map arcLine) m = some m' ∧ ∀ k, (∃ a ∈ wg, transText a = k ∧ AMap.lk m' k = some (' ' :: joinWords a.words)) ∨
      ((∀ a ∈ wg, transText a ≠ k) ∧ AMap.lk m' k = AMap.lk m k) := by
  intro wg
  induction wg with
  | nil => intro m _; exact ⟨m, rfl, fun k => Or.inr ⟨by simp, rfl⟩⟩
  | cons a wg ih =>
    intro m h
    have ha := h a List.mem_cons_self
    obtain ⟨m', h1, h2⟩ := ih (AMap.put m (transText a) (' ' :: joinWords a.words)) fun x hx => h x (List.mem_cons_of_mem _ hx)
    refine ⟨m', ?_, ?_⟩
    · rw [List.map_cons]
      unfold loadWg
      rw [split_arc ha]
      have hf : fields ' ' ([showNat a.o ++ ' ' :: (showNat a.d ++ ' ' :: a.score) ++ [' '], ' ' :: joinWords a.comps ++ [' '],
          ' ' :: joinWords a.words].headD []) = [showNat a.o, showNat a.d, a.score] := by
        show fields ' ' (showNat a.o ++ ' ' :: (showNat a.d ++ ' ' :: a.score) ++ ' ' :: []) = _
        rw [fields_blank, fields_blank, fields_blank, fields_word (word_showNat _), fields_word (word_showNat _), fields_word (ha.1 _ (by simp)).1,
          Awk.fields_nil]; rfl
      rw [hf]
      exact h1
    · intro k
      rcases h2 k with ⟨b, hb, e, hl⟩ | ⟨hn, hl⟩
      · exact Or.inl ⟨b, List.mem_cons_of_mem _ hb, e, hl⟩
      · rw [AMap.lk_put] at hl
        by_cases hk : k = transText a
        · rw [if_pos hk] at hl
          exact Or.inl ⟨a, List.mem_cons_self, hk.symm, hl⟩
        · rw [if_neg hk] at hl
          refine Or.inr ⟨?_, hl⟩
          intro b hb
          rcases List.mem_cons.1 hb with rfl | hb
          · exact fun e => hk e.symm
          · exact hn b hb

theorem covText_word {c : List Bool} (h : c ≠ []) : Word (covText c) := by
  unfold covText
  refine ⟨by simpa using h, ?_⟩
  intro x hx
  rw [List.mem_reverse, List.mem_map] at hx
  obtain ⟨b, _, rfl⟩ := hx
  cases b <;> decide

theorem loadIdx_spec (cov : Nat → List Bool) : ∀ (idx : List (Nat × W)) (m : List (W × W)), (∀ i ∈ idx, cov i.1 ≠ []) →
    ∃ m', loadIdx (idx.map (idxLine cov)) m = some m' ∧ (∀ i ∈ idx, AMap.lk m' (showNat i.1) = some (covText (cov i.1))) ∧
      ∀ k, (∀ i ∈ idx, showNat i.1 ≠ k) → AMap.lk m' k = AMap.lk m k := by
  intro idx
  induction idx with
  | nil => intro m _; exact ⟨m, rfl, by simp, fun k _ => rfl⟩
  | cons i idx ih =>
    intro m h
    obtain ⟨m', h1, h2, h3⟩ := ih (AMap.put m (showNat i.1) (covText (cov i.1))) fun x hx => h x (List.mem_cons_of_mem _ hx)
    refine ⟨m', ?_, ?_, ?_⟩
    · rw [List.map_cons]
      unfold loadIdx
      have hf : ∃ r, fields ' ' (idxLine cov i) = showNat i.1 :: covText (cov i.1) :: r := by
        refine ⟨fields ' ' i.2, ?_⟩
        have e : idxLine cov i = showNat i.1 ++ ' ' :: (covText (cov i.1) ++ ' ' :: i.2) := by
          have e1 : " ".toList = [' '] := rfl
          unfold idxLine; rw [e1]; simp
        rw [e, fields_blank, fields_blank, fields_word (word_showNat _), fields_word (covText_word (h i List.mem_cons_self))]; rfl
      obtain ⟨r, hr⟩ := hf
      rw [hr]
      exact h1
    · intro j hj
      rcases List.mem_cons.1 hj with rfl | hj
      · by_cases hex : ∃ k ∈ idx, showNat k.1 = showNat j.1
        · obtain ⟨k, hk, e⟩ := hex
          have := h2 k hk
          rw [PhrTools.showNat_inj e] at this
          exact this
        · rw [h3 _ fun k hk e => hex ⟨k, hk, e⟩, AMap.lk_put, if_pos rfl]
      · exact h2 j hj
    · intro k hk
      rw [h3 k fun j hj => hk j (List.mem_cons_of_mem _ hj), AMap.lk_put, if_neg fun e => hk i List.mem_cons_self e.symm]

/-! ### Segments -/

def bit (b : Bool) : Char := if b then '1' else '0'

theorem diffPos_spec : ∀ (b a : List Bool) (i p : Nat), p ∈ diffPos (a.map bit) (b.map bit) i ↔
    i ≤ p ∧ b[p - i]? = some true ∧ a[p - i]? ≠ some true := by
  intro b
  induction b with
  | nil =>
    intro a i p
    cases a <;> simp [diffPos]
  | cons y b ih =>
    intro a i p
    cases a with
    | nil =>
      show p ∈ (if bit y = '1' then [i] else []) ++ diffPos [] (b.map bit) (i + 1) ↔ _
      rw [List.mem_append, show ([] : W) = ([] : List Bool).map bit from rfl, ih [] (i + 1) p]
      by_cases hp : p = i
      · subst hp
        cases y <;> simp [bit] <;> try (intro h; omega)
      · by_cases h : i + 1 ≤ p
        · have : p - i = (p - (i + 1)) + 1 := by omega
          rw [this]
          cases y <;> simp [bit, hp] <;> omega
        · have h2 : ¬ i ≤ p := by omega
          cases y <;> simp [bit, hp] <;> omega
    | cons x a =>
      show p ∈ (if bit x = '0' ∧ bit y = '1' then [i] else []) ++ diffPos (a.map bit) (b.map bit) (i + 1) ↔ _
      rw [List.mem_append, ih a (i + 1) p]
      by_cases hp : p = i
      · subst hp
        cases x <;> cases y <;> simp [bit] <;> omega
      · by_cases h : i + 1 ≤ p
        · have : p - i = (p - (i + 1)) + 1 := by omega
          rw [this]
          cases x <;> cases y <;> simp [bit, hp] <;> omega
        · have h2 : ¬ i ≤ p := by omega
          cases x <;> cases y <;> simp [bit, hp] <;> omega

theorem foldl_min_spec : ∀ (l : List Nat) (a : Nat), (l.foldl min a ∈ a :: l) ∧ ∀ x ∈ a :: l, l.foldl min a ≤ x := by
  intro l
  induction l with
  | nil => intro a; simp
  | cons b l ih =>
    intro a
    obtain ⟨h1, h2⟩ := ih (min a b)
    rw [List.foldl_cons]
    constructor
    · rcases List.mem_cons.1 h1 with h | h
      · rw [h]
        rcases Nat.le_total a b with k | k
        · rw [Nat.min_eq_left k]; simp
        · rw [Nat.min_eq_right k]; simp
      · exact List.mem_cons_of_mem _ (List.mem_cons_of_mem _ h)
    · intro x hx
      have h0 := h2 (min a b) List.mem_cons_self
      simp only [List.mem_cons] at hx
      rcases hx with rfl | rfl | hx
      · omega
      · omega
      · exact h2 x (List.mem_cons_of_mem _ hx)

theorem foldl_max_spec : ∀ (l : List Nat) (a : Nat), (l.foldl max a ∈ a :: l) ∧ ∀ x ∈ a :: l, x ≤ l.foldl max a := by
  intro l
  induction l with
  | nil => intro a; simp
  | cons b l ih =>
    intro a
    obtain ⟨h1, h2⟩ := ih (max a b)
    rw [List.foldl_cons]
    constructor
    · rcases List.mem_cons.1 h1 with h | h
      · rw [h]
        rcases Nat.le_total a b with k | k
        · rw [Nat.max_eq_right k]; simp
        · rw [Nat.max_eq_left k]; simp
      · exact List.mem_cons_of_mem _ (List.mem_cons_of_mem _ h)
    · intro x hx
      have h0 := h2 (max a b) List.mem_cons_self
      simp only [List.mem_cons] at hx
      rcases hx with rfl | rfl | hx
      · omega
      · omega
      · exact h2 x (List.mem_cons_of_mem _ hx)

/-- The text of a segment. -/
def oneSegm (s : Nat × Nat) : W := "( ".toList ++ showNat s.1 ++ " , ".toList ++ showNat s.2 ++ " )".toList

theorem covText_rev (c : List Bool) : (covText c).reverse = c.map bit := by
  unfold covText; rw [List.reverse_reverse]; rfl

theorem srcSegm_spec (cov : Nat → List Bool) (a : GArc) (h : ∃ p, Covers cov a p) :
    ∃ s, srcSegm (covText (cov a.o)) (covText (cov a.d)) = some (oneSegm s) ∧ SegmOf cov a s := by
  have hmem : ∀ p, p ∈ diffPos ((cov a.o).map bit) ((cov a.d).map bit) 0 ↔ Covers cov a p := by
    intro p
    rw [diffPos_spec, Nat.sub_zero]
    exact ⟨fun h => h.2, fun h => ⟨Nat.zero_le _, h⟩⟩
  unfold srcSegm
  rw [covText_rev, covText_rev]
  cases hd : diffPos ((cov a.o).map bit) ((cov a.d).map bit) 0 with
  | nil =>
    obtain ⟨p, hp⟩ := h
    rw [← hmem, hd] at hp; cases hp
  | cons x l =>
    rw [hd] at hmem
    obtain ⟨h1, h2⟩ := foldl_min_spec l x
    obtain ⟨h3, h4⟩ := foldl_max_spec l x
    exact ⟨(l.foldl min x, l.foldl max x), rfl, (hmem _).1 h1, (hmem _).1 h3, fun p hp => ⟨h2 p ((hmem p).2 hp), h4 p ((hmem p).2 hp)⟩⟩

theorem segmLoop_spec (cov : Nat → List Bool) (idx : List (W × W)) : ∀ (arcs : List GArc),
    (∀ a ∈ arcs, AMap.lk idx (showNat a.o) = some (covText (cov a.o)) ∧ AMap.lk idx (showNat a.d) = some (covText (cov a.d)) ∧
      ∃ p, Covers cov a p) →
    ∃ ss : List (Nat × Nat), segmLoop idx (arcs.map transText) = some (ss.map oneSegm) ∧ ss.length = arcs.length ∧
      ∀ (i : Nat) a s, arcs[i]? = some a → ss[i]? = some s → SegmOf cov a s := by
  intro arcs
  induction arcs with
  | nil => intro _; exact ⟨[], rfl, rfl, by intro i a s h; simp at h⟩
  | cons a arcs ih =>
    intro h
    obtain ⟨ss, h1, h2, h3⟩ := ih fun x hx => h x (List.mem_cons_of_mem _ hx)
    obtain ⟨k1, k2, k3⟩ := h a List.mem_cons_self
    obtain ⟨s, hs, hso⟩ := srcSegm_spec cov a k3
    refine ⟨s :: ss, ?_, by simp [h2], ?_⟩
    · rw [List.map_cons]
      unfold segmLoop
      rw [split_trans]
      simp only [k1, k2, hs, h1]; rfl
    · intro i b t hb ht
      cases i with
      | zero => cases hb; cases ht; exact hso
      | succ i => exact h3 i b t hb ht

theorem cutLoop_spec (wg : List (W × W)) : ∀ (arcs : List GArc) (pos : Nat),
    (∀ a ∈ arcs, ∃ t, AMap.lk wg (transText a) = some t ∧ (fields ' ' t).length = a.words.length) →
    ∃ cuts, cutLoop wg (arcs.map transText) pos = some cuts ∧ cuts.length = arcs.length ∧
      ∀ (i : Nat) c, cuts[i]? = some c → c = pos + ((arcs.take (i + 1)).flatMap (·.words)).length := by
  intro arcs
  induction arcs with
  | nil => intro pos _; exact ⟨[], rfl, rfl, by intro i c h; simp at h⟩
  | cons a arcs ih =>
    intro pos h
    obtain ⟨t, ht, hl⟩ := h a List.mem_cons_self
    obtain ⟨cuts, h1, h2, h3⟩ := ih (pos + a.words.length) fun x hx => h x (List.mem_cons_of_mem _ hx)
    refine ⟨(pos + a.words.length) :: cuts, ?_, by simp [h2], ?_⟩
    · rw [List.map_cons]
      unfold cutLoop
      rw [ht]
      simp only [hl, h1]; rfl
    · intro i c hc
      cases i with
      | zero => cases hc; simp
      | succ i =>
        have := h3 i c hc
        rw [this, List.take_succ_cons, List.flatMap_cons, List.length_append]; omega

/-! ### The property -/

theorem segmText_eq (ss : List (Nat × Nat)) (cuts : List Nat) :
    segmText ss cuts = joinWords (ss.map oneSegm) ++ " | ".toList ++ joinWords (cuts.map showNat) := rfl

theorem segmLine_spec (cov : Nat → List Bool) (wg : List GArc) (idx : List (Nat × W)) (x : NbEntry) (hx : x.Ok wg idx) (mw mi : List (W × W))
    (hw : ∀ a ∈ x.arcs, ∃ t, AMap.lk mw (transText a) = some t ∧ (fields ' ' t).length = a.words.length)
    (hi : ∀ i ∈ idx, AMap.lk mi (showNat i.1) = some (covText (cov i.1))) (hc : ∀ a ∈ wg, ∃ p, Covers cov a p) :
    ∃ ss cuts, segmLine mw mi (entryLine x.entry) = some (entryLine x.entry ++ " ||| ".toList ++ segmText ss cuts) ∧
      Segmentation cov x.arcs ss cuts := by
  obtain ⟨ss, s1, s2, s3⟩ := segmLoop_spec cov mi x.arcs (by
    intro a ha
    obtain ⟨h1, ⟨i, h2, h2e⟩, ⟨j, h3, h3e⟩⟩ := hx.arcs a ha
    refine ⟨?_, ?_, hc a h1⟩
    · rw [← h2e]; exact hi i h2
    · rw [← h3e]; exact hi j h3)
  obtain ⟨cuts, c1, c2, c3⟩ := cutLoop_spec mw x.arcs 0 hw
  refine ⟨ss, cuts, ?_, ⟨⟨s2, c2⟩, s3, fun i c h => by rw [c3 i c h, Nat.zero_add]⟩⟩
  have hf : (splitOn bars (entryLine x.entry))[2]? = some (' ' :: joinWords (x.arcs.map transText) ++ [' ']) := by
    have e : entryLine x.entry = x.entry.score ++ fsep ++ joinWords x.entry.feats ++ fsep ++
        (joinWords (x.arcs.map transText) ++ fsep ++ joinWords x.entry.trans) := by
      unfold entryLine
      rw [hx.states, between_eq]; simp
    have e2 : ' ' :: (joinWords (x.arcs.map transText) ++ fsep ++ joinWords x.entry.trans) =
        (' ' :: joinWords (x.arcs.map transText) ++ [' ']) ++ bars ++ (' ' :: joinWords x.entry.trans) := by simp [fsep, bars]
    rw [e, split_bars (hx.bars.1 _ (by simp)).2 (noBars_join hx.bars.2), e2,
      splitOn_clean (by decide) _ _ (clean_bars_pre (noBars_join (noBars_trans _)))]
    rfl
  have hfields : fields ' ' (' ' :: joinWords (x.arcs.map transText) ++ [' ']) = x.arcs.map transText := by
    rw [List.cons_append, Awk.fields_sep, fields_blank, Awk.fields_nil, List.append_nil]
    exact fields_join fun w hw' => (noBars_trans x.arcs w hw').1
  unfold segmLine
  rw [hf]
  simp only
  rw [hfields, if_neg (by simpa using hx.ne), c1, s1]
  show some (entryLine x.entry ++ fsep ++ joinWords (ss.map oneSegm) ++ " | ".toList ++ joinWords (cuts.map showNat)) = _
  rw [segmText_eq, show " ||| ".toList = fsep from rfl]
  simp

theorem segmLines_spec (cov : Nat → List Bool) (wg : List GArc) (idx : List (Nat × W)) (mw mi : List (W × W))
    (hi : ∀ i ∈ idx, AMap.lk mi (showNat i.1) = some (covText (cov i.1))) (hc : ∀ a ∈ wg, ∃ p, Covers cov a p) : ∀ (xs : List NbEntry),
    (∀ x ∈ xs, x.Ok wg idx) →
    (∀ x ∈ xs, ∀ a ∈ x.arcs, ∃ t, AMap.lk mw (transText a) = some t ∧ (fields ' ' t).length = a.words.length) →
    ∃ sc : List (List (Nat × Nat) × List Nat), sc.length = xs.length ∧
    (∀ (i : Nat) x p, xs[i]? = some x → sc[i]? = some p → Segmentation cov x.arcs p.1 p.2) ∧
    segmLines mw mi (xs.map fun x => entryLine x.entry) =
      some (List.zipWith (fun x p => entryLine x.entry ++ " ||| ".toList ++ segmText p.1 p.2) xs sc) := by
  intro xs
  induction xs with
  | nil => intro _ _; exact ⟨[], rfl, by intro i x p h; simp at h, rfl⟩
  | cons x xs ih =>
    intro hx hw
    obtain ⟨sc, h1, h2, h3⟩ := ih (fun y hy => hx y (List.mem_cons_of_mem _ hy)) fun y hy => hw y (List.mem_cons_of_mem _ hy)
    obtain ⟨ss, cuts, k1, k2⟩ := segmLine_spec cov wg idx x (hx x List.mem_cons_self) mw mi (hw x List.mem_cons_self) hi hc
    refine ⟨(ss, cuts) :: sc, by simp [h1], ?_, ?_⟩
    · intro i y p hy hp
      cases i with
      | zero => cases hy; cases hp; exact k2
      | succ i => exact h2 i y p hy hp
    · rw [List.map_cons]
      unfold segmLines
      rw [k1, h3]; rfl

/-- **C268 (partial).** Every entry is printed with the source positions translated by every arc of its path (the first and the last one) and the
numbers of target words up to every arc. Missing: word graphs with several arcs between two states, with different numbers of words
(counterexample). -/
theorem C268_segm_partial (cov : Nat → List Bool) (wg : List GArc) (idx : List (Nat × W)) (xs : List NbEntry) (h g1 g2 i1 i2 : W)
    (hwg : ∀ a ∈ wg, a.Ok ∧ ∃ p, Covers cov a p) (hidx : ∀ i ∈ idx, cov i.1 ≠ []) (hx : ∀ x ∈ xs, x.Ok wg idx)
    (hpar : ∀ a ∈ wg, ∀ b ∈ wg, a.o = b.o → a.d = b.d → a.words.length = b.words.length) :
    ∃ out, segmInfo (h :: xs.map fun x => entryLine x.entry) (g1 :: g2 :: wg.map arcLine) (i1 :: i2 :: idx.map (idxLine cov)) = some out ∧
      GoodInfo cov xs h out := by
  obtain ⟨mw, m1, m2⟩ := loadWg_spec wg [] fun a ha => (hwg a ha).1
  obtain ⟨mi, n1, n2, _⟩ := loadIdx_spec cov idx [] hidx
  obtain ⟨sc, h1, h2, h3⟩ := segmLines_spec cov wg idx mw mi n2 (fun a ha => (hwg a ha).2) xs hx (by
    intro x hxm a ha
    obtain ⟨hawg, _⟩ := (hx x hxm).arcs a ha
    rcases m2 (transText a) with ⟨b, hb, e, hl⟩ | ⟨hn, _⟩
    · refine ⟨_, hl, ?_⟩
      obtain ⟨e1, e2⟩ := trans_inj e
      rw [Awk.fields_sep, fields_join fun w hw => ((hwg b hb).1.2.2 w hw).1]
      exact hpar b hb a hawg e1 e2
    · exact absurd rfl (hn a hawg))
  refine ⟨_, ?_, sc, h1, h2, rfl⟩
  unfold segmInfo
  rw [show (g1 :: g2 :: wg.map arcLine).drop 2 = wg.map arcLine from rfl,
    show (i1 :: i2 :: idx.map (idxLine cov)).drop 2 = idx.map (idxLine cov) from rfl, m1, n1]
  simp only
  rw [h3]; rfl

/-! ### Counterexample -/

def exA1 : GArc := ⟨0, 1, ['5'], [['5']], [['a'], ['b']]⟩
def exA2 : GArc := ⟨0, 1, ['4'], [['4']], [['c']]⟩
def exCov (n : Nat) : List Bool := if n = 0 then [false, false] else [false, true]
def exIdx : List (Nat × W) := [(0, ['7']), (1, ['7'])]
def exX : NbEntry := ⟨⟨['5'], [['5']], some [['0', '-', '>', '1']], [['a'], ['b']]⟩, [exA1]⟩

theorem noBars_dec {s : List W} (h : ∀ w ∈ s, (w ≠ [] ∧ ∀ c ∈ w, c ≠ ' ' ∧ c ≠ '\n' ∧ c ≠ '\x00') ∧ '|' ∉ w) : NoBars s :=
  fun w hw => ⟨(h w hw).1, noBars_of_char (h w hw).2⟩

theorem ex_show : showNat 0 = ['0'] ∧ showNat 1 = ['1'] ∧ showNat 2 = ['2'] := by
  refine ⟨?_, ?_, ?_⟩ <;> simp [showNat, Vocab.digit] <;> decide

theorem exA1_ok : exA1.Ok := ⟨noBars_dec (by decide), noBars_dec (by decide), noBars_dec (by decide)⟩
theorem exA2_ok : exA2.Ok := ⟨noBars_dec (by decide), noBars_dec (by decide), noBars_dec (by decide)⟩
theorem ex_cov (a : GArc) (h : a.o = 0 ∧ a.d = 1) : Covers exCov a 1 := by
  unfold Covers; rw [h.1, h.2]; decide

theorem exTrans : transText exA1 = ['0', '-', '>', '1'] := by
  show showNat 0 ++ ['-', '>'] ++ showNat 1 = _
  rw [ex_show.1, ex_show.2.1]; rfl

theorem exX_ok (wg : List GArc) (h : exA1 ∈ wg) : exX.Ok wg exIdx := by
  refine ⟨⟨sent_dec (by decide), sent_dec (by decide), ?_, sent_dec (by decide)⟩, ⟨noBars_dec (by decide), noBars_dec (by decide)⟩, ?_, by decide, ?_⟩
  · intro s hs; cases hs; exact sent_dec (by decide)
  · show some [['0', '-', '>', '1']] = some [transText exA1]
    rw [exTrans]
  · intro a ha
    rw [List.mem_singleton.1 ha]
    exact ⟨h, ⟨_, List.mem_cons_self, rfl⟩, ⟨_, List.mem_cons_of_mem _ List.mem_cons_self, rfl⟩⟩

/-- The hypotheses are met. -/
example : ∃ out, segmInfo [[], entryLine exX.entry] [[], [], arcLine exA1] ([] :: [] :: exIdx.map (idxLine exCov)) = some out ∧ GoodInfo exCov [exX] [] out :=
  C268_segm_partial exCov [exA1] exIdx [exX] [] [] [] [] []
    (by intro a ha; rw [List.mem_singleton.1 ha]; exact ⟨exA1_ok, 1, ex_cov _ ⟨rfl, rfl⟩⟩)
    (by intro i _; unfold exCov; split <;> decide)
    (by intro x hx; rw [List.mem_singleton.1 hx]; exact exX_ok _ (by simp))
    (by intro a ha b hb _ _; rw [List.mem_singleton.1 ha, List.mem_singleton.1 hb])

/-- **C268 is false of the code**: of two arcs between the same states, the last one counts for both. -/
theorem C268_counterexample : ¬ C268_full := by
  intro hf
  have hok : ∀ a ∈ [exA1, exA2], a.Ok ∧ ∃ p, Covers exCov a p := by
    intro a ha
    simp only [List.mem_cons, List.not_mem_nil, or_false] at ha
    rcases ha with rfl | rfl
    · exact ⟨exA1_ok, 1, ex_cov _ ⟨rfl, rfl⟩⟩
    · exact ⟨exA2_ok, 1, ex_cov _ ⟨rfl, rfl⟩⟩
  obtain ⟨out, h1, sc, hl, hseg, hout⟩ := hf exCov [exA1, exA2] exIdx [exX] [] [] [] [] [] hok
    (by intro i _; unfold exCov; split <;> decide) (by intro x hx; rw [List.mem_singleton.1 hx]; exact exX_ok _ (by simp))
  -- the same list for the graph with an arc of one word, whose text the program gives
  obtain ⟨mw, m1, m2⟩ := loadWg_spec [exA1, exA2] [] fun a ha => (hok a ha).1
  obtain ⟨mi, n1, n2, _⟩ := loadIdx_spec exCov exIdx [] (by intro i _; unfold exCov; split <;> decide)
  have hmw : AMap.lk mw (transText exA1) = some (' ' :: joinWords exA2.words) := by
    have hl2 : loadWg ([exA2].map arcLine) (AMap.put [] (transText exA1) (' ' :: joinWords exA1.words)) = some mw := by
      rw [List.map_cons] at m1
      unfold loadWg at m1
      rw [split_arc exA1_ok] at m1
      have hf : fields ' ' ([showNat exA1.o ++ ' ' :: (showNat exA1.d ++ ' ' :: exA1.score) ++ [' '], ' ' :: joinWords exA1.comps ++ [' '],
          ' ' :: joinWords exA1.words].headD []) = [showNat exA1.o, showNat exA1.d, exA1.score] := by
        show fields ' ' (showNat exA1.o ++ ' ' :: (showNat exA1.d ++ ' ' :: exA1.score) ++ ' ' :: []) = _
        rw [fields_blank, fields_blank, fields_blank, fields_word (word_showNat _), fields_word (word_showNat _),
          fields_word (exA1_ok.1 _ (by simp)).1, Awk.fields_nil]; rfl
      rw [hf] at m1
      exact m1
    obtain ⟨mw2, p1, p2⟩ := loadWg_spec [exA2] (AMap.put [] (transText exA1) (' ' :: joinWords exA1.words)) (by
      intro a ha; rw [List.mem_singleton.1 ha]; exact exA2_ok)
    rw [hl2] at p1
    cases p1
    rcases p2 (transText exA1) with ⟨a, ha, _, h⟩ | ⟨h, _⟩
    · rw [List.mem_singleton.1 ha] at h; exact h
    · exact absurd rfl (h exA2 List.mem_cons_self)
  -- the program prints the cut of the second arc
  let x2 : NbEntry := ⟨exX.entry, [exA2]⟩
  have hx2 : x2.Ok [exA2] exIdx := by
    have h0 := exX_ok [exA1] (by simp)
    refine ⟨h0.entry, h0.bars, ?_, by show [exA2] ≠ []; simp, ?_⟩
    · show some [['0', '-', '>', '1']] = some [transText exA1]
      rw [exTrans]
    · intro a ha
      rw [List.mem_singleton.1 ha]
      exact ⟨by simp, ⟨_, List.mem_cons_self, rfl⟩, ⟨_, List.mem_cons_of_mem _ List.mem_cons_self, rfl⟩⟩
  obtain ⟨ss2, cuts2, q1, q2⟩ := segmLine_spec exCov [exA2] exIdx x2 hx2 mw mi
    (by intro a ha
        rw [List.mem_singleton.1 ha]
        refine ⟨_, hmw, ?_⟩
        rw [Awk.fields_sep, fields_join fun w hw => (exA2_ok.2.2 w hw).1]) n2
    (by intro a ha; rw [List.mem_singleton.1 ha]; exact ⟨1, ex_cov _ ⟨rfl, rfl⟩⟩)
  have hinfo : segmInfo ([] :: [exX].map fun x => entryLine x.entry) ([] :: [] :: [exA1, exA2].map arcLine) ([] :: [] :: exIdx.map (idxLine exCov)) =
      some [[], entryLine exX.entry ++ " ||| ".toList ++ segmText ss2 cuts2] := by
    unfold segmInfo
    rw [show ([] :: [] :: [exA1, exA2].map arcLine : List W).drop 2 = [exA1, exA2].map arcLine from rfl,
      show ([] :: [] :: exIdx.map (idxLine exCov) : List W).drop 2 = exIdx.map (idxLine exCov) from rfl, m1, n1]
    simp only [List.map_cons, List.map_nil]
    unfold segmLines
    rw [show segmLine mw mi (entryLine exX.entry) = some (entryLine exX.entry ++ " ||| ".toList ++ segmText ss2 cuts2) from q1]
    rfl
  rw [hinfo] at h1
  cases h1
  obtain ⟨p, hp⟩ : ∃ p, sc = [p] := by
    cases sc with
    | nil => cases hl
    | cons p sc =>
      cases sc with
      | nil => exact ⟨p, rfl⟩
      | cons _ _ => simp at hl
  subst hp
  have hsg := hseg 0 exX p rfl rfl
  have hone : ∀ {arcs : List GArc} {ss : List (Nat × Nat)} {cuts : List Nat} {a : GArc}, Segmentation exCov arcs ss cuts → arcs = [a] →
      ∃ s, ss = [s] ∧ cuts = [a.words.length] := by
    intro arcs ss cuts a h ha
    subst ha
    obtain ⟨l1, l2⟩ := h.len
    match ss, cuts, l1, l2 with
    | [s], [c], _, _ =>
      refine ⟨s, rfl, ?_⟩
      rw [h.cut 0 c rfl]; simp
  obtain ⟨s1, e1, e2⟩ := hone hsg rfl
  obtain ⟨s2, e3, e4⟩ := hone q2 rfl
  rw [e3, e4] at hout
  have heq : entryLine exX.entry ++ " ||| ".toList ++ segmText [s2] [exA2.words.length] =
      entryLine exX.entry ++ " ||| ".toList ++ segmText p.1 p.2 := by
    injection hout with _ h
    injection h with h _
  rw [e1, e2, List.append_cancel_left_eq] at heq
  have hl := congrArg List.getLast? heq
  have ht : ∀ (s : Nat × Nat) (c : Char) (k : Nat), showNat k = [c] → (segmText [s] [k]).getLast? = some c := by
    intro s c k hk
    show (joinWords [oneSegm s] ++ " | ".toList ++ showNat k).getLast? = _
    rw [hk, List.getLast?_concat]
  rw [ht s2 '1' exA2.words.length ex_show.2.1, ht s1 '2' exA1.words.length ex_show.2.2] at hl
  exact absurd hl (by decide)

end Thot.NbTools
