import Verif.Meta.Model
import Verif.StrProc.Props

/-! # Translation constraints written inside the sentence (C77–C79) -/
namespace Thot.Meta
open Thot.StrProc (Str stringToStringVector Tokens Blanks IsWord isBlank)

/-! ## Specification -/

/-- The six tags, spelled out. -/
def Tags : List Str :=
  ["<phr_pair_annot>".toList, "</phr_pair_annot>".toList, "<src_segm>".toList, "</src_segm>".toList,
   "<trg_segm>".toList, "</trg_segm>".toList]

/-- No tag starts inside `u` when it is followed by `v`. -/
def NoTagIn (u v : Str) : Prop := ∀ a b, u = a ++ b → b ≠ [] → ∀ t ∈ Tags, ¬ t <+: b ++ v

/-- The tokens of a sentence: its tags, and the blank-separated words of the text before, between and after
them. -/
inductive Toks : Str → List Str → Prop
  | text {u : Str} {ws : List Str} : NoTagIn u [] → Tokens u ws → Toks u ws
  | tag {u t v : Str} {ws ts : List Str} : NoTagIn u (t ++ v) → t ∈ Tags → Tokens u ws → Toks v ts →
      Toks (u ++ (t ++ v)) (ws ++ t :: ts)

/-- An element of the sentence: an ordinary word, or a source phrase annotated with its translation. -/
inductive Item where
  | word (w : Str)
  | annot (src trg : List Str)
deriving DecidableEq, Repr

/-- The tokens an element is written with. -/
def Item.toks : Item → List Str
  | .word w => [w]
  | .annot src trg =>
    ["<phr_pair_annot>".toList, "<src_segm>".toList] ++ src ++ ["</src_segm>".toList, "<trg_segm>".toList] ++ trg ++
      ["</trg_segm>".toList, "</phr_pair_annot>".toList]

/-- The source words an element stands for. -/
def Item.src : Item → List Str
  | .word w => [w]
  | .annot src _ => src

/-- Both sides of an annotation are non-empty, and neither contains its own end tag. -/
def WfAnnot (src trg : List Str) : Prop :=
  src ≠ [] ∧ trg ≠ [] ∧ "</src_segm>".toList ∉ src ∧ "</trg_segm>".toList ∉ trg

/-- Reading the tokens from left to right: a well-formed annotation is read as such, any other token is a
word. -/
inductive Parse : List Str → List Item → Prop
  | nil : Parse [] []
  | annot {src trg r : List Str} {is : List Item} : WfAnnot src trg → Parse r is →
      Parse ((Item.annot src trg).toks ++ r) (.annot src trg :: is)
  | word {w : Str} {r : List Str} {is : List Item} :
      (¬ ∃ src trg r', WfAnnot src trg ∧ w :: r = (Item.annot src trg).toks ++ r') → Parse r is →
      Parse (w :: r) (.word w :: is)

/-- The constraints: for each annotation the (1-based) first and last position of its source phrase in the
sentence without tags, and its translation; `n` words come before. -/
def constraintsOf : Nat → List Item → List (Segm × List Str)
  | _, [] => []
  | n, .word _ :: is => constraintsOf (n + 1) is
  | n, .annot src trg :: is => ((n + 1, n + src.length), trg) :: constraintsOf (n + src.length) is

/-- The sentence without tags. -/
def sentenceOf (is : List Item) : List Str := is.flatMap Item.src

/-! ## Tokenisation -/

theorem tags_eq : xmlTagSet = Tags := by decide

theorem tags_shape : ∀ t ∈ Tags, ∃ b : Str, t = '<' :: (b ++ ['>']) ∧ '>' ∉ b ∧ ' ' ∉ b ∧ '<' ∉ b ∧ '\t' ∉ b := by
  intro t ht
  refine ⟨t.tail.dropLast, ?_⟩
  revert t
  decide

theorem xmlTagLoop_spec (aux s t r : Str) :
    xmlTagLoop aux s = some (t, r) ↔ ∃ b, s = b ++ '>' :: r ∧ '>' ∉ b ∧ ' ' ∉ b ∧ t = aux ++ b ++ ['>'] ∧ t ∈ Tags := by
  induction s generalizing aux with
  | nil => simp [xmlTagLoop]
  | cons c cs ih =>
    rw [xmlTagLoop, tags_eq]
    split <;> rename_i hc
    · subst hc
      split <;> rename_i ht
      · constructor
        · intro h; cases h; exact ⟨[], by simp, by simp, by simp, by simp, ht⟩
        · rintro ⟨b, h1, h2, h3, h4, h5⟩
          cases b with
          | nil => simp at h1 h4; subst h1; subst h4; rfl
          | cons x b => simp at h1; simp [← h1.1] at h2
      · constructor
        · intro h; cases h
        · rintro ⟨b, h1, h2, h3, h4, h5⟩
          cases b with
          | nil => simp at h1 h4; subst h4; exact absurd h5 ht
          | cons x b => simp at h1; simp [← h1.1] at h2
    · split <;> rename_i hs
      · constructor
        · intro h; cases h
        · rintro ⟨b, h1, h2, h3, h4, h5⟩
          cases b with
          | nil => simp at h1; exact absurd h1.1 hc
          | cons x b => simp at h1; simp [← h1.1, hs] at h3
      · rw [ih]
        constructor
        · rintro ⟨b, h1, h2, h3, h4, h5⟩
          exact ⟨c :: b, by simp [h1], by simp [h2, Ne.symm hc], by simp [h3, Ne.symm hs], by simp [h4], h5⟩
        · rintro ⟨b, h1, h2, h3, h4, h5⟩
          cases b with
          | nil => simp at h1; exact absurd h1.1 hc
          | cons x b =>
            simp at h1 h2 h3
            obtain ⟨rfl, h1⟩ := h1
            exact ⟨b, h1, h2.2, h3.2, by simp [h4], h5⟩

/-- `xmlTag` recognises exactly the strings beginning with one of the tags. -/
theorem xmlTag_spec (s t r : Str) : xmlTag s = some (t, r) ↔ t ∈ Tags ∧ s = t ++ r := by
  cases s with
  | nil =>
    simp only [xmlTag]
    constructor
    · intro h; cases h
    · rintro ⟨h1, h2⟩
      obtain ⟨b, rfl, _⟩ := tags_shape t h1
      simp at h2
  | cons c cs =>
    rw [xmlTag]
    split <;> rename_i hc
    · subst hc
      rw [xmlTagLoop_spec]
      constructor
      · rintro ⟨b, h1, h2, h3, h4, h5⟩
        exact ⟨h5, by simp [h1, h4]⟩
      · rintro ⟨h1, h2⟩
        obtain ⟨b, rfl, h3, h4, _⟩ := tags_shape t h1
        simp at h2
        exact ⟨b, by simp [h2], h3, h4, by simp, h1⟩
    · constructor
      · intro h; cases h
      · rintro ⟨h1, h2⟩
        obtain ⟨b, rfl, h3, h4, _⟩ := tags_shape t h1
        simp at h2
        exact absurd h2.1 hc

theorem xmlTag_none (s : Str) : xmlTag s = none ↔ ∀ t ∈ Tags, ¬ t <+: s := by
  constructor
  · rintro h t ht ⟨r, hr⟩
    have := (xmlTag_spec s t r).2 ⟨ht, hr.symm⟩
    rw [h] at this; cases this
  · intro h
    cases hx : xmlTag s with
    | none => rfl
    | some p =>
      obtain ⟨t, r⟩ := p
      obtain ⟨h1, h2⟩ := (xmlTag_spec s t r).1 hx
      exact absurd ⟨r, h2.symm⟩ (h t h1)

/-- Joining two texts with a blank joins their token lists. -/
theorem Tokens.append {u v : Str} {us vs : List Str} (hu : Tokens u us) (hv : Tokens v vs)
    (h : v = [] ∨ ∃ c r, v = c :: r ∧ isBlank c = true) : Tokens (u ++ v) (us ++ vs) := by
  induction hu with
  | nil hb => exact Tokens.blanks hb hv
  | @cons b t rest ts h1 h2 h3 h4 ih =>
    have e : b ++ t ++ rest ++ v = b ++ t ++ (rest ++ v) := by simp
    rw [e, List.cons_append]
    refine .cons h1 h2 ?_ ih
    rcases h3 with rfl | ⟨c, r, rfl, hc⟩
    · simpa using h
    · exact Or.inr ⟨c, r ++ v, rfl, hc⟩

theorem isWord_tag {t : Str} (h : t ∈ Tags) : IsWord t := by
  revert t; unfold IsWord; decide

theorem tag_last {t : Str} (h : t ∈ Tags) : t.getLast? = some '>' := by
  revert t; decide


abbrev tk := stringToStringVector

theorem tk_eq {s : Str} {ts : List Str} (h : Tokens s ts) : tk s = ts := (StrProc.C15_tokens s).unique h

theorem tk_nil : tk [] = [] := tk_eq (.nil (by simp [Blanks]))

theorem tk_cons_blank {c : Char} (v : Str) (h : isBlank c = true) : tk (c :: v) = tk v :=
  tk_eq (Tokens.blanks (b := [c]) (by intro x hx; simp at hx; subst hx; exact h) (StrProc.C15_tokens v))

theorem tk_append {u v : Str} {c : Char} (h : isBlank c = true) : tk (u ++ c :: v) = tk u ++ tk v := by
  have := Tokens.append (StrProc.C15_tokens u) (StrProc.C15_tokens (c :: v)) (Or.inr ⟨c, v, rfl, h⟩)
  rw [tk_eq this]
  show tk u ++ tk (c :: v) = _
  rw [tk_cons_blank v h]

theorem tk_word {t v : Str} (h : IsWord t) (hv : v = [] ∨ ∃ c r, v = c :: r ∧ isBlank c = true) :
    tk (t ++ v) = t :: tk v := by
  have := Tokens.cons (b := []) (by simp [Blanks]) h hv (StrProc.C15_tokens v)
  exact tk_eq (by simpa using this)

theorem blankAfter_head (r w : Str) (hw : ∀ c cs, r = c :: cs → c = ' ' → ∃ x, w = ' ' :: x) :
    (∃ x, blankAfter r ++ w = ' ' :: x) ∧ tk (blankAfter r ++ w) = tk w := by
  cases r with
  | nil => exact ⟨⟨w, rfl⟩, tk_cons_blank w (by decide)⟩
  | cons c cs =>
    by_cases hc : c = ' '
    · subst hc; simpa [blankAfter] using hw ' ' cs rfl rfl
    · simp only [blankAfter, ne_eq, hc, not_false_eq_true, if_true]
      exact ⟨⟨w, rfl⟩, tk_cons_blank w (by decide)⟩

/-- The character before the text that follows `v`. -/
def lastOr (p : Option Char) (v : Str) : Option Char := match v.getLast? with | some c => some c | none => p

theorem lastOr_cons (p : Option Char) (c : Char) (v : Str) : lastOr (some c) v = lastOr p (c :: v) := by
  unfold lastOr
  cases v with
  | nil => rfl
  | cons d v =>
    rw [List.getLast?_cons_cons]
    obtain ⟨y, hy⟩ : ∃ y, (d :: v).getLast? = some y := ⟨_, List.getLast?_eq_some_getLast (by simp)⟩
    simp [hy]

/-- One run of the loop up to the next tag. -/
theorem tokenizeLoop_run (p : Option Char) (s : Str) :
    (NoTagIn s [] ∧ tokenizeLoop p s = s) ∨
    ∃ v t r, s = v ++ (t ++ r) ∧ NoTagIn v (t ++ r) ∧ t ∈ Tags ∧
      tokenizeLoop p s = v ++ (blankBefore (lastOr p v) ++ t ++ blankAfter r ++ tokenizeLoop (some '>') r) := by
  induction s generalizing p with
  | nil => left; exact ⟨by intro a b h hb; simp at h; exact absurd h.2 hb, by rw [tokenizeLoop]⟩
  | cons c cs ih =>
    rw [tokenizeLoop]
    split
    · rename_i t r h
      obtain ⟨h1, h2⟩ := (xmlTag_spec _ _ _).1 h
      refine Or.inr ⟨[], t, r, by simpa using h2, ?_, h1, by simp [tag_last h1, lastOr]⟩
      intro a b hab hb; simp at hab; exact absurd hab.2 hb
    · rename_i h
      rw [xmlTag_none] at h
      rcases ih (some c) with ⟨h1, h2⟩ | ⟨v, t, r, h1, h2, h3, h4⟩
      · refine Or.inl ⟨?_, by rw [h2]⟩
        intro a b hab hb
        cases a with
        | nil => simp at hab; subst hab; simpa using h
        | cons x a => simp at hab; exact h1 a b hab.2 hb
      · refine Or.inr ⟨c :: v, t, r, by simp [h1], ?_, h3, by rw [h4, lastOr_cons p]; rfl⟩
        intro a b hab hb
        cases a with
        | nil => simp at hab; subst hab; rw [h1] at h; simpa using h
        | cons x a => simp at hab; exact h2 a b hab.2 hb

theorem tokenizeLoop_blank (p : Option Char) (x : Str) : tokenizeLoop p (' ' :: x) = ' ' :: tokenizeLoop (some ' ') x := by
  have : xmlTag (' ' :: x) = none := by simp [xmlTag]
  rw [tokenizeLoop]
  split
  · rename_i h; rw [this] at h; cases h
  · rfl

theorem toks_tokenizeLoop (p : Option Char) (s : Str) : Toks s (tk (tokenizeLoop p s)) := by
  induction hn : s.length using Nat.strongRecOn generalizing p s with
  | ind n ih =>
    subst hn
    rcases tokenizeLoop_run p s with ⟨h1, h2⟩ | ⟨v, t, r, h1, h2, h3, h4⟩
    · rw [h2]; exact .text h1 (StrProc.C15_tokens s)
    · have hlen : r.length < s.length := by
        obtain ⟨b, hb, _⟩ := tags_shape t h3
        rw [h1, hb]; simp; omega
      have hrec := ih r.length hlen (some '>') r rfl
      obtain ⟨⟨x, hx⟩, htk⟩ := blankAfter_head r (tokenizeLoop (some '>') r) (by
        intro c cs hr hc
        subst hr; subst hc
        exact ⟨_, tokenizeLoop_blank _ _⟩)
      have ht : tk (t ++ (blankAfter r ++ tokenizeLoop (some '>') r)) = t :: tk (tokenizeLoop (some '>') r) := by
        rw [tk_word (isWord_tag h3) (Or.inr ⟨' ', x, hx, by decide⟩), htk]
      have hbb : ∀ (q : Option Char) (y : Str), tk (blankBefore q ++ y) = tk y := by
        intro q y
        cases q with
        | none => simp [blankBefore]
        | some d =>
          by_cases hd : d = ' '
          · simp [blankBefore, hd]
          · simp only [blankBefore, ne_eq, hd, not_false_eq_true, if_true]; exact tk_cons_blank y (by decide)
      have hmain : tk (tokenizeLoop p s) = tk v ++ t :: tk (tokenizeLoop (some '>') r) := by
        rw [h4, ← ht, List.append_assoc, List.append_assoc]
        generalize t ++ (blankAfter r ++ tokenizeLoop (some '>') r) = y
        rcases v.eq_nil_or_concat with rfl | ⟨v', c, rfl⟩
        · simp only [List.nil_append]; rw [hbb, tk_nil, List.nil_append]
        · rw [List.concat_eq_append]
          have : lastOr p (v' ++ [c]) = some c := by simp [lastOr]
          rw [this]
          by_cases hc : c = ' '
          · subst hc
            have e : v' ++ [' '] ++ (blankBefore (some ' ') ++ y) = v' ++ ' ' :: y := by simp [blankBefore]
            rw [e, tk_append (by decide), tk_append (by decide), tk_nil, List.append_nil]
          · simp only [blankBefore, ne_eq, hc, not_false_eq_true, if_true]
            exact tk_append (by decide)
      rw [hmain]
      conv => lhs; rw [h1]
      exact .tag h2 h3 (StrProc.C15_tokens v) hrec

/-- Two tags starting at the same place are equal. -/
theorem tag_prefix_unique {t t' r r' : Str} (h : t ∈ Tags) (h' : t' ∈ Tags) (he : t ++ r = t' ++ r') : t = t' ∧ r = r' := by
  have h1 := (xmlTag_spec (t ++ r) t r).2 ⟨h, rfl⟩
  have h2 := (xmlTag_spec (t ++ r) t' r').2 ⟨h', he⟩
  rw [h1] at h2
  injection h2 with h2
  exact ⟨congrArg Prod.fst h2, congrArg Prod.snd h2⟩

theorem noTag_le {v v' x x' : Str} {t : Str} (hn : NoTagIn v x) (ht : t ∈ Tags) (he : v ++ x = v' ++ (t ++ x')) :
    v.length ≤ v'.length := by
  apply Nat.le_of_not_lt
  intro hlt
  obtain ⟨b, hb⟩ : ∃ b, v = v' ++ b := by
    have := congrArg (List.take v.length) he
    rw [List.take_left, List.take_append, List.take_of_length_le (Nat.le_of_lt hlt)] at this
    exact ⟨_, this⟩
  subst hb
  have hb : b ≠ [] := by rintro rfl; simp at hlt
  rw [List.append_assoc] at he
  exact hn v' b rfl hb t ht ⟨x', (List.append_cancel_left he).symm⟩

/-- The specified tokenisation is unique. -/
theorem Toks.unique {s : Str} {ts : List Str} (h : Toks s ts) : ∀ {ts' : List Str}, Toks s ts' → ts = ts' := by
  induction h with
  | @text u ws h1 h2 =>
    intro ts' h'
    generalize hs : u = s' at h'
    cases h' with
    | text g1 g2 => subst hs; exact h2.unique g2
    | @tag u' t v ws' ts' g1 g2 g3 g4 =>
      have := noTag_le h1 g2 (x := []) (v' := u') (x' := v) (by rw [hs]; simp)
      have hl := congrArg List.length hs
      obtain ⟨b, hb, _⟩ := tags_shape t g2
      rw [hb] at hl; simp at hl; omega
  | @tag u t v ws ts h1 h2 h3 h4 ih =>
    intro ts' h'
    generalize hs : u ++ (t ++ v) = s' at h'
    cases h' with
    | text g1 g2 =>
      have := noTag_le g1 h2 (x := []) (v' := u) (x' := v) (by rw [← hs]; simp)
      have hl := congrArg List.length hs
      obtain ⟨b, hb, _⟩ := tags_shape t h2
      rw [hb] at hl; simp at hl; omega
    | @tag u' t' v' ws' ts' g1 g2 g3 g4 =>
      have l1 := noTag_le h1 g2 (v' := u') (x' := v') hs
      have l2 := noTag_le g1 h2 (v' := u) (x' := v) hs.symm
      obtain ⟨e1, e2⟩ := List.append_inj hs (by omega)
      obtain ⟨e3, e4⟩ := tag_prefix_unique h2 g2 e2
      subst e1 e3 e4
      rw [ih g4, h3.unique g3]

/-! ## Parsing -/

theorem readSegm_spec (tag : Str) (ts : List Str) :
    tag ∉ (readSegm tag ts).1 ∧ ts = (readSegm tag ts).1 ++ (readSegm tag ts).2 ∧
    ((readSegm tag ts).2 = [] ∨ ∃ r, (readSegm tag ts).2 = tag :: r) := by
  induction ts with
  | nil => simp [readSegm]
  | cons t ts ih =>
    rw [readSegm]
    split <;> rename_i h
    · obtain ⟨h1, h2, h3⟩ := ih
      exact ⟨by simp [h1, Ne.symm h], by simpa using h2, h3⟩
    · simp at h; subst h; simp

theorem readSegm_append {tag : Str} {ws r : List Str} (h : tag ∉ ws) : readSegm tag (ws ++ tag :: r) = (ws, tag :: r) := by
  induction ws with
  | nil => simp [readSegm]
  | cons w ws ih =>
    simp at h
    rw [List.cons_append, readSegm, if_pos (Ne.symm h.1), ih h.2]

theorem readTagged_iff (n : Str) (ts ws r : List Str) :
    readTagged n ts = some (ws, r) ↔ ts = startTag n :: (ws ++ endTag n :: r) ∧ ws ≠ [] ∧ endTag n ∉ ws := by
  cases ts with
  | nil => simp [readTagged]
  | cons t ts =>
    rw [readTagged]
    split <;> rename_i ht
    · subst ht
      obtain ⟨h1, h2, h3⟩ := readSegm_spec (endTag n) ts
      constructor
      · intro h
        generalize readSegm (endTag n) ts = p at h h1 h2 h3
        obtain ⟨a, b⟩ := p
        cases b with
        | nil => simp at h
        | cons x xs =>
          simp only [] at h h1 h2 h3
          split at h
          · cases h
          · rename_i hl
            cases h
            rcases h3 with h3 | ⟨r', h3⟩
            · cases h3
            · injection h3 with e1 e2
              subst e1
              exact ⟨by rw [h2], by rintro rfl; simp at hl, h1⟩
      · rintro ⟨g1, g2, g3⟩
        injection g1 with _ g1
        rw [g1, readSegm_append g3]
        simp [g2]
    · constructor
      · intro h; cases h
      · rintro ⟨g1, _⟩; injection g1 with g1 _; exact absurd g1 ht

theorem tagNames : startTag phrAnnotName = "<phr_pair_annot>".toList ∧ endTag phrAnnotName = "</phr_pair_annot>".toList ∧
    startTag srcSegmName = "<src_segm>".toList ∧ endTag srcSegmName = "</src_segm>".toList ∧
    startTag trgSegmName = "<trg_segm>".toList ∧ endTag trgSegmName = "</trg_segm>".toList := by decide

/-- `constraintFound` succeeds exactly at a well-formed annotation. -/
theorem constraintFound_iff (ts src trg r : List Str) :
    constraintFound ts = some (src, trg, r) ↔ WfAnnot src trg ∧ ts = (Item.annot src trg).toks ++ r := by
  obtain ⟨n1, n2, n3, n4, n5, n6⟩ := tagNames
  cases ts with
  | nil => simp [constraintFound, Item.toks]
  | cons t ts =>
    rw [constraintFound]
    unfold WfAnnot Item.toks
    rw [← n1, ← n2, ← n3, ← n4, ← n5, ← n6]
    constructor
    · intro h
      split at h
      · rename_i ht
        split at h
        · cases h
        · rename_i src' r1 h1
          split at h
          · cases h
          · cases h
          · rename_i trg' e r2 h2
            split at h
            · rename_i he
              cases h
              obtain ⟨a1, a2, a3⟩ := (readTagged_iff _ _ _ _).1 h1
              obtain ⟨b1, b2, b3⟩ := (readTagged_iff _ _ _ _).1 h2
              refine ⟨⟨a2, b2, a3, b3⟩, ?_⟩
              rw [ht, a1, b1, he]; simp
            · cases h
      · cases h
    · rintro ⟨⟨a1, a2, a3, a4⟩, he⟩
      simp at he
      obtain ⟨e1, e2⟩ := he
      rw [if_pos e1]
      have h1 : readTagged srcSegmName ts = some (src, startTag trgSegmName :: (trg ++ endTag trgSegmName :: endTag phrAnnotName :: r)) := by
        rw [readTagged_iff]; exact ⟨by rw [e2], a1, a3⟩
      have h2 : readTagged trgSegmName (startTag trgSegmName :: (trg ++ endTag trgSegmName :: endTag phrAnnotName :: r)) =
          some (trg, endTag phrAnnotName :: r) := by
        rw [readTagged_iff]; exact ⟨rfl, a2, a4⟩
      simp [h1, h2]

theorem Parse.unique {ts : List Str} {is : List Item} (h : Parse ts is) : ∀ {is' : List Item}, Parse ts is' → is = is' := by
  induction h with
  | nil =>
    intro is' h'
    generalize hs : ([] : List Str) = s' at h'
    cases h' with
    | nil => rfl
    | annot => simp [Item.toks] at hs
    | word => cases hs
  | @annot src trg r is hw hp ih =>
    intro is' h'
    generalize hs : (Item.annot src trg).toks ++ r = s' at h'
    cases h' with
    | nil => simp [Item.toks] at hs
    | @annot src' trg' r' is' hw' hp' =>
      have h1 := (constraintFound_iff _ src trg r).2 ⟨hw, rfl⟩
      have h2 := (constraintFound_iff _ src' trg' r').2 ⟨hw', hs⟩
      rw [h1] at h2
      injection h2 with h2
      injection h2 with e1 h2
      injection h2 with e2 e3
      subst e1 e2 e3
      rw [ih hp']
    | @word w r' is' hn hp' => exact absurd ⟨src, trg, r, hw, hs.symm⟩ hn
  | @word w r is hn hp ih =>
    intro is' h'
    generalize hs : w :: r = s' at h'
    cases h' with
    | nil => cases hs
    | @annot src' trg' r' is' hw' hp' => exact absurd ⟨src', trg', r', hw', hs⟩ hn
    | @word w' r' is' hn' hp' =>
      injection hs with e1 e2
      subst e1 e2
      rw [ih hp']

theorem put_new {K V : Type} [DecidableEq K] {m : List (K × V)} {k : K} {v : V} (h : ∀ e ∈ m, e.1 ≠ k) :
    AMap.put m k v = m ++ [(k, v)] := by
  induction m with
  | nil => rfl
  | cons e m ih => rw [AMap.put, if_neg (h e (by simp)), ih (fun e he => h e (by simp [he]))]; rfl

theorem parse_total (ts : List Str) : ∃ is, Parse ts is := by
  induction hn : ts.length using Nat.strongRecOn generalizing ts with
  | ind n ih =>
    subst hn
    cases ts with
    | nil => exact ⟨[], .nil⟩
    | cons w r =>
      cases hc : constraintFound (w :: r) with
      | some p =>
        obtain ⟨src, trg, r'⟩ := p
        obtain ⟨h1, h2⟩ := (constraintFound_iff _ _ _ _).1 hc
        obtain ⟨is, hi⟩ := ih r'.length (constraintFound_len hc) r' rfl
        exact ⟨_, by rw [h2]; exact .annot h1 hi⟩
      | none =>
        obtain ⟨is, hi⟩ := ih r.length (by simp) r rfl
        refine ⟨_, .word ?_ hi⟩
        rintro ⟨src, trg, r', h1, h2⟩
        have := (constraintFound_iff _ _ _ _).2 ⟨h1, h2⟩
        rw [hc] at this; cases this

theorem scanLoop_word {w : Str} {r : List Str} {d : MD} (h : constraintFound (w :: r) = none) :
    scanLoop d (w :: r) = if r.length = 0 then some { d with srcSentVec := d.srcSentVec ++ [w] }
      else scanLoop { d with srcSentVec := d.srcSentVec ++ [w] } r := by
  rw [scanLoop]
  split
  · rename_i h'; rw [h] at h'; cases h'
  · rfl

theorem scanLoop_spec {ts : List Str} {is : List Item} (h : Parse ts is) (hne : ts ≠ []) (d : MD)
    (hd : ∀ e ∈ d.srcPhrTransMap, e.1.1 ≤ d.srcSentVec.length) :
    scanLoop d ts = some ⟨d.srcSentVec ++ sentenceOf is, d.srcPhrTransMap ++ constraintsOf d.srcSentVec.length is⟩ := by
  induction h generalizing d with
  | nil => exact absurd rfl hne
  | @annot src trg r is hw hp ih =>
    have hc := (constraintFound_iff _ src trg r).2 ⟨hw, rfl⟩
    have hadd : d.addConstraint src trg = ⟨d.srcSentVec ++ src,
        d.srcPhrTransMap ++ [((d.srcSentVec.length + 1, d.srcSentVec.length + src.length), trg)]⟩ := by
      unfold MD.addConstraint
      dsimp only
      rw [put_new]
      · simp
      · intro e he heq; have := hd e he; rw [heq] at this; simp at this; omega
    rw [scanLoop]
    split
    · rename_i src' trg' r' h'
      rw [hc] at h'
      injection h' with h'
      injection h' with e1 h'
      injection h' with e2 e3
      subst e1 e2 e3
      rw [hadd]
      split <;> rename_i hl
      · have : r = [] := List.eq_nil_of_length_eq_zero hl
        subst this
        have : is = [] := hp.unique Parse.nil
        subst this
        simp [sentenceOf, constraintsOf, Item.src]
      · rw [ih (by intro h; simp [h] at hl)]
        · simp [sentenceOf, constraintsOf, Item.src]
        · intro e he
          simp at he ⊢
          rcases he with he | rfl
          · have := hd e he; omega
          · have : src.length ≠ 0 := by intro h; exact hw.1 (List.eq_nil_of_length_eq_zero h)
            simp; omega
    · rename_i h'; rw [hc] at h'; cases h'
  | @word w r is hn hp ih =>
    have hc : constraintFound (w :: r) = none := by
      cases hc : constraintFound (w :: r) with
      | none => rfl
      | some p =>
        obtain ⟨src, trg, r'⟩ := p
        exact absurd ⟨src, trg, r', (constraintFound_iff _ _ _ _).1 hc⟩ hn
    rw [scanLoop_word hc]
    · split <;> rename_i hl
      · have : r = [] := List.eq_nil_of_length_eq_zero hl
        subst this
        have : is = [] := hp.unique Parse.nil
        subst this
        simp [sentenceOf, constraintsOf, Item.src]
      · rw [ih (by intro h; simp [h] at hl)]
        · simp [sentenceOf, constraintsOf, Item.src]
        · intro e he; have := hd e he; simp; omega

/-! ## C77 -/

/-- **C77.** For every sentence that is not blank, the source sentence and the constraints extracted are those of the
left-to-right reading of its tokens (tokens and reading are unique: `Toks.unique`, `Parse.unique`). -/
theorem C77_constraints (raw : Str) (ts : List Str) (is : List Item) (ht : Toks raw ts) (hp : Parse ts is)
    (hne : ts ≠ []) : obtainTransConstraints raw = some ⟨sentenceOf is, constraintsOf 0 is⟩ := by
  have h1 : tk (tokenizeSrcSentence raw) = ts := ((toks_tokenizeLoop none raw).unique ht)
  have hraw : raw ≠ [] := by
    rintro rfl
    apply hne
    rw [← h1, tokenizeSrcSentence, tokenizeLoop]; exact tk_nil
  unfold obtainTransConstraints
  rw [if_neg (by simpa using hraw)]
  have : stringToStringVector (tokenizeSrcSentence raw) = ts := h1
  rw [this, scanLoop_spec hp hne _ (by simp [MD.empty])]
  simp [MD.empty]

/-- Every sentence has tokens and every token list has a reading. -/
theorem C77_total (raw : Str) : ∃ ts is, Toks raw ts ∧ Parse ts is := by
  obtain ⟨is, h⟩ := parse_total (tk (tokenizeSrcSentence raw))
  exact ⟨_, is, toks_tokenizeLoop none raw, h⟩

/-- The source sentence and the constraints are consistent whatever the sentence is: segments are non-empty, inside
the sentence, in increasing order and pairwise disjoint, and every translation is non-empty. -/
theorem constraintsOf_facts (is : List Item) (n : Nat) (h : ∀ src trg, Item.annot src trg ∈ is → WfAnnot src trg) :
    (∀ e ∈ constraintsOf n is, n + 1 ≤ e.1.1 ∧ e.1.1 ≤ e.1.2 ∧ e.1.2 ≤ n + (sentenceOf is).length ∧ e.2 ≠ []) ∧
    (constraintsOf n is).Pairwise (fun a b => a.1.2 < b.1.1) := by
  induction is generalizing n with
  | nil => simp [constraintsOf]
  | cons i is ih =>
    cases i with
    | word w =>
      obtain ⟨h1, h2⟩ := ih (n + 1) (fun src trg hm => h src trg (by simp [hm]))
      refine ⟨fun e he => ?_, h2⟩
      obtain ⟨a, b, c, d⟩ := h1 e he
      simp [sentenceOf, Item.src] at c ⊢
      exact ⟨by omega, b, by omega, d⟩
    | annot src trg =>
      obtain ⟨h1, h2⟩ := ih (n + src.length) (fun src trg hm => h src trg (by simp [hm]))
      obtain ⟨w1, w2, _⟩ := h src trg (by simp)
      have hl : 0 < src.length := List.length_pos_iff.2 w1
      constructor
      · intro e he
        simp only [constraintsOf, List.mem_cons] at he
        simp only [sentenceOf, List.flatMap_cons, List.length_append, Item.src]
        rcases he with rfl | he
        · dsimp only; exact ⟨by omega, by omega, by omega, w2⟩
        · obtain ⟨a, b, c, d⟩ := h1 e he
          simp only [sentenceOf] at c
          exact ⟨by omega, b, by omega, d⟩
      · refine List.pairwise_cons.2 ⟨fun e he => ?_, h2⟩
        have := (h1 e he).1
        dsimp only; omega

theorem Parse.wf {ts : List Str} {is : List Item} (h : Parse ts is) :
    ∀ src trg, Item.annot src trg ∈ is → WfAnnot src trg := by
  induction h with
  | nil => simp
  | annot hw _ ih =>
    intro s t hm
    simp at hm
    rcases hm with ⟨rfl, rfl⟩ | hm
    · exact hw
    · exact ih s t hm
  | word _ _ ih => intro s t hm; simp at hm; exact ih s t hm

/-- **C77.** The constraint segments of any sentence are non-empty, inside the source sentence, in increasing order and
pairwise disjoint, each with a non-empty translation, which is what `getTransForSrcPhr` returns. -/
theorem C77_segments (raw : Str) (d : MD) (h : obtainTransConstraints raw = some d) :
    (∀ e ∈ d.srcPhrTransMap, 1 ≤ e.1.1 ∧ e.1.1 ≤ e.1.2 ∧ e.1.2 ≤ (getSrcSentVec d).length ∧ e.2 ≠ [] ∧
      getTransForSrcPhr d e.1 = e.2) ∧
    (getConstrainedSrcPhrases d).Pairwise (fun a b => a.2 < b.1) := by
  obtain ⟨ts, is, ht, hp⟩ := C77_total raw
  by_cases hne : ts = []
  · subst hne
    have htk : tk (tokenizeSrcSentence raw) = [] := ((toks_tokenizeLoop none raw).unique ht)
    unfold obtainTransConstraints at h
    split at h
    · cases h; simp [MD.empty, getConstrainedSrcPhrases]
    · have : stringToStringVector (tokenizeSrcSentence raw) = [] := htk
      rw [this, scanLoop] at h
      simp [constraintFound] at h
  · rw [C77_constraints raw ts is ht hp hne] at h
    cases h
    obtain ⟨h1, h2⟩ := constraintsOf_facts is 0 hp.wf
    have hpw : (List.map Prod.fst (constraintsOf 0 is)).Pairwise (fun a b => a.2 < b.1) := List.pairwise_map.2 h2
    refine ⟨fun e he => ?_, hpw⟩
    obtain ⟨a, b, c, dd⟩ := h1 e he
    have hd : AMap.Distinct (constraintsOf 0 is) := by
      unfold AMap.Distinct
      rw [List.nodup_iff_pairwise_ne, List.pairwise_map]
      refine (List.Pairwise.and_mem.1 h2).imp ?_
      rintro x y ⟨hx, hy, hxy⟩ heq
      have := (h1 x hx).2.1
      rw [heq] at this hxy
      have := (h1 y hy).2.1
      omega
    refine ⟨by omega, b, by simpa [getSrcSentVec] using c, dd, ?_⟩
    unfold getTransForSrcPhr
    rw [(AMap.lk_some_iff hd).2 he]

/-! ### Writing annotations -/

/-- A word the user may write: non-empty, no blanks, no `<`. -/
def PlainWord (w : Str) : Prop := w ≠ [] ∧ ∀ c ∈ w, isBlank c = false ∧ c ≠ '<'

/-- How an element is written; tags need no blanks around them. -/
def Item.text : Item → Str
  | .word w => w
  | .annot src trg =>
    "<phr_pair_annot><src_segm>".toList ++ StrProc.stringVectorToString src ++ "</src_segm><trg_segm>".toList ++
      StrProc.stringVectorToString trg ++ "</trg_segm></phr_pair_annot>".toList

/-- All the words of an element are plain and both sides of an annotation are non-empty. -/
def Item.Plain : Item → Prop
  | .word w => PlainWord w
  | .annot src trg => src ≠ [] ∧ trg ≠ [] ∧ (∀ w ∈ src, PlainWord w) ∧ ∀ w ∈ trg, PlainWord w

theorem tag_head {t : Str} (h : t ∈ Tags) : ∃ b, t = '<' :: b := by
  obtain ⟨b, hb, _⟩ := tags_shape t h
  exact ⟨_, hb⟩

theorem noTag_of_noLt {u : Str} (v : Str) (h : '<' ∉ u) : NoTagIn u v := by
  rintro a b rfl hb t ht ⟨r, hr⟩
  obtain ⟨b', rfl⟩ := tag_head ht
  cases b with
  | nil => exact hb rfl
  | cons c b => simp at hr; simp [← hr.1] at h

theorem noTag_prepend {u v x : Str} (hu : '<' ∉ u) (h : NoTagIn v x) : NoTagIn (u ++ v) x := by
  intro a b hab hb t ht
  rcases List.append_eq_append_iff.1 hab with ⟨c, h1, h2⟩ | ⟨c, h1, h2⟩
  · exact h c b h2 hb t ht
  · subst h1 h2
    cases c with
    | nil => exact h [] v rfl (by simpa using hb) t ht
    | cons y c =>
      rintro ⟨r, hr⟩
      obtain ⟨b', rfl⟩ := tag_head ht
      simp at hr
      simp [← hr.1] at hu

theorem Toks.prepend {u v : Str} {ts : List Str} (hu : '<' ∉ u) (h : Toks v ts) :
    Toks (u ++ ' ' :: v) (tk u ++ ts) := by
  have hu' : '<' ∉ u ++ [' '] := by simp [hu]
  have e : ∀ x : Str, u ++ ' ' :: x = (u ++ [' ']) ++ x := by simp
  cases h with
  | text h1 h2 =>
    rw [e]
    refine .text (noTag_prepend hu' h1) ?_
    have := StrProc.C15_tokens (u ++ ' ' :: v)
    rw [show stringToStringVector (u ++ ' ' :: v) = tk u ++ tk v from tk_append (by decide), tk_eq h2] at this
    rwa [e] at this
  | @tag u' t v' ws ts' h1 h2 h3 h4 =>
    have e2 : u ++ ' ' :: (u' ++ (t ++ v')) = (u ++ ' ' :: u') ++ (t ++ v') := by simp
    rw [e2, show tk u ++ (ws ++ t :: ts') = (tk u ++ ws) ++ t :: ts' by simp]
    refine .tag ?_ h2 ?_ h4
    · rw [e]; exact noTag_prepend hu' h1
    · have := StrProc.C15_tokens (u ++ ' ' :: u')
      rwa [show stringToStringVector (u ++ ' ' :: u') = tk u ++ tk u' from tk_append (by decide), tk_eq h3] at this

theorem Toks.tag0 {t v : Str} {ts : List Str} (ht : t ∈ Tags) (h : Toks v ts) : Toks (t ++ v) (t :: ts) := by
  have := Toks.tag (u := []) (ws := []) (noTag_of_noLt _ (by simp)) ht (.nil (by simp [Blanks])) h
  simpa using this

theorem Toks.wordsTag {u t v : Str} {ts : List Str} (hu : '<' ∉ u) (ht : t ∈ Tags) (h : Toks v ts) :
    Toks (u ++ (t ++ v)) (tk u ++ t :: ts) :=
  Toks.tag (noTag_of_noLt _ hu) ht (StrProc.C15_tokens u) h

theorem mem_joinLoop {c : Char} {r : Str} {ws : List Str} (h : c ∈ StrProc.joinLoop r ws) : c ∈ r ∨ c = ' ' ∨ ∃ w ∈ ws, c ∈ w := by
  induction ws generalizing r with
  | nil => exact Or.inl h
  | cons w ws ih =>
    rw [StrProc.joinLoop] at h
    rcases ih h with h | h | ⟨x, hx, hc⟩
    · simp at h
      rcases h with h | h | h
      · exact Or.inl h
      · exact Or.inr (Or.inl h)
      · exact Or.inr (Or.inr ⟨w, by simp, h⟩)
    · exact Or.inr (Or.inl h)
    · exact Or.inr (Or.inr ⟨x, by simp [hx], hc⟩)

theorem noLt_join {ws : List Str} (h : ∀ w ∈ ws, PlainWord w) : '<' ∉ StrProc.stringVectorToString ws := by
  cases ws with
  | nil => simp [StrProc.stringVectorToString]
  | cons w ws =>
    intro hm
    rcases mem_joinLoop hm with h1 | h1 | ⟨x, hx, hc⟩
    · exact ((h w (by simp)).2 _ h1).2 rfl
    · cases h1
    · exact ((h x (by simp [hx])).2 _ hc).2 rfl

theorem tk_join {ws : List Str} (h : ∀ w ∈ ws, PlainWord w) : tk (StrProc.stringVectorToString ws) = ws := by
  refine StrProc.C15_roundtrip ws fun t ht => ⟨(h t ht).1, fun c hc => ?_⟩
  have := ((h t ht).2 c hc).1
  rw [Bool.eq_false_iff, ne_eq, StrProc.isBlank_iff] at this
  exact ⟨fun h => this (Or.inl h), fun h => this (Or.inr h)⟩

theorem toks_text (is : List Item) (h : ∀ i ∈ is, i.Plain) :
    Toks (is.flatMap fun i => i.text ++ [' ']) (is.flatMap Item.toks) := by
  induction is with
  | nil => exact .text (noTag_of_noLt _ (by simp)) (.nil (by simp [Blanks]))
  | cons i is ih =>
    have hr := ih fun i hi => h i (by simp [hi])
    have hi := h i (by simp)
    simp only [List.flatMap_cons]
    generalize (is.flatMap fun i => i.text ++ [' ']) = v at hr
    generalize is.flatMap Item.toks = ts at hr
    have hb : Toks (' ' :: v) ts := by simpa [tk_nil] using Toks.prepend (u := []) (by simp) hr
    cases i with
    | word w =>
      obtain ⟨h1, h2⟩ := hi
      have hw : tk w = [w] := by simpa [tk_nil] using tk_word (v := []) ⟨h1, fun c hc => (h2 c hc).1⟩ (Or.inl rfl)
      have := Toks.prepend (u := w) (fun hm => (h2 _ hm).2 rfl) hr
      rw [hw] at this
      show Toks (w ++ [' '] ++ v) ([w] ++ ts)
      simpa using this
    | annot src trg =>
      obtain ⟨h1, h2, h3, h4⟩ := hi
      have a1 := Toks.tag0 (t := "</trg_segm>".toList) (by decide) (Toks.tag0 (t := "</phr_pair_annot>".toList) (by decide) hb)
      have a2 := Toks.wordsTag (noLt_join h4) (t := "</trg_segm>".toList) (by decide) (Toks.tag0 (t := "</phr_pair_annot>".toList) (by decide) hb)
      rw [tk_join h4] at a2
      have a3 := Toks.wordsTag (noLt_join h3) (t := "</src_segm>".toList) (by decide) (Toks.tag0 (t := "<trg_segm>".toList) (by decide) a2)
      rw [tk_join h3] at a3
      have a4 := Toks.tag0 (t := "<phr_pair_annot>".toList) (by decide) (Toks.tag0 (t := "<src_segm>".toList) (by decide) a3)
      have e1 : "<phr_pair_annot><src_segm>".toList = "<phr_pair_annot>".toList ++ "<src_segm>".toList := by decide
      have e2 : "</src_segm><trg_segm>".toList = "</src_segm>".toList ++ "<trg_segm>".toList := by decide
      have e3 : "</trg_segm></phr_pair_annot>".toList = "</trg_segm>".toList ++ "</phr_pair_annot>".toList := by decide
      show Toks ((("<phr_pair_annot><src_segm>".toList ++ StrProc.stringVectorToString src ++
        "</src_segm><trg_segm>".toList ++ StrProc.stringVectorToString trg ++
        "</trg_segm></phr_pair_annot>".toList) ++ [' ']) ++ v) (["<phr_pair_annot>".toList, "<src_segm>".toList] ++ src ++
        ["</src_segm>".toList, "<trg_segm>".toList] ++ trg ++ ["</trg_segm>".toList, "</phr_pair_annot>".toList] ++ ts)
      rw [e1, e2, e3]
      clear e1 e2 e3 a1 a2 a3
      revert a4
      generalize "<phr_pair_annot>".toList = t1
      generalize "</phr_pair_annot>".toList = t2
      generalize "<src_segm>".toList = t3
      generalize "</src_segm>".toList = t4
      generalize "<trg_segm>".toList = t5
      generalize "</trg_segm>".toList = t6
      intro a4
      simpa using a4

theorem plain_not_tag {w t : Str} (h : PlainWord w) (ht : t ∈ Tags) : w ≠ t := by
  rintro rfl
  obtain ⟨b, hb⟩ := tag_head ht
  exact (h.2 '<' (by simp [hb])).2 rfl

theorem parse_toks (is : List Item) (h : ∀ i ∈ is, i.Plain) : Parse (is.flatMap Item.toks) is := by
  induction is with
  | nil => exact .nil
  | cons i is ih =>
    have hr := ih fun i hi => h i (by simp [hi])
    have hi := h i (by simp)
    rw [List.flatMap_cons]
    cases i with
    | word w =>
      refine .word ?_ hr
      rintro ⟨src, trg, r', _, he⟩
      simp [Item.toks] at he
      exact plain_not_tag hi (t := "<phr_pair_annot>".toList) (by decide) (by rw [he.1]; decide)
    | annot src trg =>
      obtain ⟨h1, h2, h3, h4⟩ := hi
      exact .annot ⟨h1, h2, fun hm => plain_not_tag (h3 _ hm) (t := "</src_segm>".toList) (by decide) rfl,
        fun hm => plain_not_tag (h4 _ hm) (t := "</trg_segm>".toList) (by decide) rfl⟩ hr

/-- **C77 (writing a constraint).** A sentence written with plain words and annotations is read back as written: the
source sentence is the sequence of its words with each annotation replaced by its source side, and each annotation
yields the constraint on exactly its words. -/
theorem C77_roundtrip (is : List Item) (hne : is ≠ []) (h : ∀ i ∈ is, i.Plain) :
    obtainTransConstraints (is.flatMap fun i => i.text ++ [' ']) = some ⟨sentenceOf is, constraintsOf 0 is⟩ := by
  refine C77_constraints _ _ is (toks_text is h) (parse_toks is h) ?_
  cases is with
  | nil => exact absurd rfl hne
  | cons i is => cases i <;> simp [Item.toks]

/-- Non-vacuity: `a <phr_pair_annot><src_segm>b c</src_segm><trg_segm>X</trg_segm></phr_pair_annot> d`. -/
example : obtainTransConstraints
    "a <phr_pair_annot><src_segm>b c</src_segm><trg_segm>X</trg_segm></phr_pair_annot> d ".toList =
    some ⟨["a".toList, "b".toList, "c".toList, "d".toList], [((2, 3), ["X".toList])]⟩ := by
  have h := C77_roundtrip [.word "a".toList, .annot ["b".toList, "c".toList] ["X".toList], .word "d".toList] (by simp)
    (by intro i hi; simp at hi; rcases hi with rfl | rfl | rfl <;> simp [Item.Plain, PlainWord] <;> decide)
  exact h

/-! ## C78 – blank sentences -/

/-- The property wanted: reading a sentence never accesses a token that does not exist. -/
def C78_full : Prop := ∀ raw : Str, (obtainTransConstraints raw).isSome = true

/-- **C78 (partial).** The sentences read without an out-of-bounds access are exactly the empty one and those with at
least one token. -/
theorem C78_reads_partial (raw : Str) :
    (obtainTransConstraints raw).isSome = true ↔ (raw = [] ∨ ∃ c ∈ raw, isBlank c = false) := by
  obtain ⟨ts, is, ht, hp⟩ := C77_total raw
  by_cases hraw : raw = []
  · subst hraw; simp [obtainTransConstraints]
  · by_cases hne : ts = []
    · subst hne
      have htk : stringToStringVector (tokenizeSrcSentence raw) = [] := ((toks_tokenizeLoop none raw).unique ht)
      have hl : raw.length ≠ 0 := by simpa using hraw
      simp only [obtainTransConstraints, if_neg hl, htk, scanLoop, constraintFound, Option.isSome_none,
        Bool.false_eq_true, hraw, false_or, false_iff]
      rintro ⟨c, hc, hcb⟩
      generalize he : ([] : List Str) = e at ht
      cases ht with
      | text h1 h2 =>
        cases h2 with
        | nil hb => rw [hb c hc] at hcb; cases hcb
        | cons => cases he
      | tag => simp at he
    · rw [C77_constraints raw ts is ht hp hne]
      simp only [Option.isSome_some, true_iff]
      right
      cases ht with
      | text h1 h2 =>
        cases h2 with
        | nil => exact absurd rfl hne
        | @cons b t rest ts' g1 g2 g3 g4 =>
          obtain ⟨hn, ha⟩ := g2
          cases t with
          | nil => exact absurd rfl hn
          | cons c t => exact ⟨c, by simp, ha c (by simp)⟩
      | @tag u t v ws ts' h1 h2 h3 h4 =>
        obtain ⟨b, rfl⟩ := tag_head h2
        exact ⟨'<', by simp, by decide⟩

/-- A sentence of one blank makes the decoder read element 0 of an empty vector. -/
theorem C78_counterexample : ¬ C78_full := by
  intro h
  have := (C78_reads_partial [' ']).1 (h [' '])
  simp [isBlank] at this

/-! ## C79 – checking the constraints of a translation -/

/-- The two position ranges have a position in common. -/
def Meet (p q : Segm) : Prop := ∃ j, p.1 ≤ j ∧ j ≤ p.2 ∧ q.1 ≤ j ∧ j ≤ q.2

/-- **C79.** A (non-empty) source phrase is reported as affected exactly when it shares a word with a constrained
phrase. -/
theorem C79_affected (raw : Str) (d : MD) (h : obtainTransConstraints raw = some d) (p : Segm) (hp : p.1 ≤ p.2) :
    srcPhrAffectedByConstraint d p = true ↔ ∃ q ∈ getConstrainedSrcPhrases d, Meet p q := by
  obtain ⟨hs, _⟩ := C77_segments raw d h
  unfold srcPhrAffectedByConstraint getConstrainedSrcPhrases Meet
  simp only [List.any_eq_true, Bool.and_eq_true, decide_eq_true_eq, List.mem_map]
  constructor
  · rintro ⟨e, he, h1, h2⟩
    refine ⟨e.1, ⟨e, he, rfl⟩, max p.1 e.1.1, ?_⟩
    have := (hs e he).2.1
    omega
  · rintro ⟨q, ⟨e, he, rfl⟩, j, h1, h2, h3, h4⟩
    exact ⟨e, he, by omega, by omega⟩

/-- Words `a+1 … b` of a target sentence. -/
def words (tw : List Str) (a b : Nat) : List Str := (tw.drop a).take (b - a)

/-- End of the target segment before the `k`-th one. -/
def cutBefore (cuts : List Nat) (k : Nat) : Nat := if k = 0 then 0 else cuts.getD (k - 1) 0

/-- A phrase alignment of the target words `tw`: one cut for each source segment, never decreasing, none after the
last word. -/
structure Alignment (ss : List Segm) (cuts : List Nat) (tw : List Str) : Prop where
  len : ss.length = cuts.length
  mono : cuts.Pairwise (· ≤ ·)
  bound : ∀ c ∈ cuts, c ≤ tw.length
  disj : ∀ i j, ∀ (hi : i < ss.length) (hj : j < ss.length), i ≠ j → ¬ Meet ss[i] ss[j]

/-- What honouring a constraint means: if the first word of the constrained phrase is already translated, it was
translated in a segment that is exactly the constrained phrase, by exactly the given words. -/
def Honours (ss : List Segm) (cuts : List Nat) (tw : List Str) (c : Segm) (trans : List Str) : Prop :=
  ∀ k, ∀ (hk : k < ss.length), ss[k].1 ≤ c.1 → c.1 ≤ ss[k].2 →
    ss[k] = c ∧ words tw (cutBefore cuts k) (cuts.getD k 0) = trans

theorem findRelated_spec (c : Segm) (cuts : List Nat) : ∀ (ss : List Segm) (k : Nat), k + ss.length ≤ cuts.length →
    (findRelated c cuts k ss = some none ∧ ∀ i, ∀ (hi : i < ss.length), ¬ (ss[i].1 ≤ c.1 ∧ c.1 ≤ ss[i].2)) ∨
    ∃ i, ∃ (hi : i < ss.length), (ss[i].1 ≤ c.1 ∧ c.1 ≤ ss[i].2) ∧
      findRelated c cuts k ss = some (some (ss[i], cutBefore cuts (k + i) + 1, cuts.getD (k + i) 0)) := by
  intro ss
  induction ss with
  | nil => intro k _; left; exact ⟨rfl, by simp⟩
  | cons s ss ih =>
    intro k hk
    simp only [List.length_cons] at hk
    rw [findRelated]
    split <;> rename_i hc
    · right
      refine ⟨0, by simp, by simpa using hc, ?_⟩
      have hk1 : k < cuts.length := by omega
      by_cases h0 : k = 0
      · subst h0; simp [cutBefore, List.getElem?_eq_getElem hk1, List.getD_eq_getElem?_getD]
      · have hk2 : k - 1 < cuts.length := by omega
        simp [h0, cutBefore, List.getElem?_eq_getElem hk1, List.getElem?_eq_getElem hk2, List.getD_eq_getElem?_getD]
    · rcases ih (k + 1) (by omega) with ⟨h1, h2⟩ | ⟨i, hi, h1, h2⟩
      · left
        refine ⟨h1, fun i hi => ?_⟩
        cases i with
        | zero => intro h; simp at h; exact hc ⟨h.1, h.2⟩
        | succ i => simpa using h2 i (by simpa using hi)
      · right
        refine ⟨i + 1, by simpa using hi, by simpa using h1, ?_⟩
        rw [h2, Nat.add_right_comm]; rfl

theorem transDiffers_spec (tw : List Str) : ∀ (tr : List Str) (a : Nat), a + tr.length ≤ tw.length →
    ∃ b, transDiffers tw (a + 1) tr = some b ∧ (b = false ↔ (tw.drop a).take tr.length = tr) := by
  intro tr
  induction tr with
  | nil => intro a _; exact ⟨false, rfl, by simp⟩
  | cons w tr ih =>
    intro a ha
    simp only [List.length_cons] at ha
    have hlt : a < tw.length := by omega
    obtain ⟨b, h1, h2⟩ := ih (a + 1) (by omega)
    rw [transDiffers, Nat.add_sub_cancel, List.getElem?_eq_getElem hlt]
    dsimp only
    rw [List.drop_eq_getElem_cons hlt, List.length_cons, List.take_succ_cons, List.cons.injEq, ← h2]
    split <;> rename_i hw
    · exact ⟨true, rfl, by simp [Ne.symm hw]⟩
    · simp at hw
      exact ⟨b, h1, by simp [hw]⟩

theorem cutBefore_le {cuts : List Nat} (h : cuts.Pairwise (· ≤ ·)) {k : Nat} (hk : k < cuts.length) :
    cutBefore cuts k ≤ cuts.getD k 0 := by
  unfold cutBefore
  split
  · omega
  · have := List.pairwise_iff_getElem.1 h (k - 1) k (by omega) hk (by omega)
    rw [List.getD_eq_getElem?_getD, List.getD_eq_getElem?_getD, List.getElem?_eq_getElem hk,
      List.getElem?_eq_getElem (by omega : k - 1 < cuts.length)]
    exact this

theorem transViolates_spec {ss : List Segm} {cuts : List Nat} {tw : List Str} (ha : Alignment ss cuts tw) (c : Segm)
    (trans : List Str) : ∃ b, transViolatesSrcPhrConstraint c trans ss cuts tw = some b ∧
      (b = false ↔ Honours ss cuts tw c trans) := by
  unfold transViolatesSrcPhrConstraint
  rcases findRelated_spec c cuts ss 0 (by have := ha.len; omega) with ⟨h1, h2⟩ | ⟨i, hi, h1, h2⟩
  · rw [h1]
    exact ⟨false, rfl, by simp; intro k hk a b; exact absurd ⟨a, b⟩ (h2 k hk)⟩
  · rw [h2, Nat.zero_add]
    dsimp only
    have hic : i < cuts.length := by have := ha.len; omega
    have hle := cutBefore_le ha.mono hic
    have hb : cuts.getD i 0 ≤ tw.length := by
      rw [List.getD_eq_getElem?_getD, List.getElem?_eq_getElem hic]
      exact ha.bound _ (List.getElem_mem hic)
    have honly : ∀ k, ∀ (hk : k < ss.length), ss[k].1 ≤ c.1 → c.1 ≤ ss[k].2 → k = i := by
      intro k hk a b
      apply Classical.byContradiction
      intro hne
      exact ha.disj k i hk hi hne ⟨c.1, a, b, h1.1, h1.2⟩
    have key : Honours ss cuts tw c trans ↔ (ss[i] = c ∧ words tw (cutBefore cuts i) (cuts.getD i 0) = trans) := by
      constructor
      · intro h; exact h i hi h1.1 h1.2
      · intro h k hk a b
        have := honly k hk a b
        subst this
        exact h
    rw [key]
    split <;> rename_i hc
    · rw [← hc]
      split <;> rename_i hl
      · refine ⟨true, rfl, ?_⟩
        simp only [Bool.true_eq_false, true_and, false_iff]
        intro h
        have := congrArg List.length h
        simp only [words, List.length_take, List.length_drop] at this
        omega
      · simp only [ne_eq, Decidable.not_not] at hl
        obtain ⟨b, h3, h4⟩ := transDiffers_spec tw trans (cutBefore cuts i) (by omega)
        refine ⟨b, h3, ?_⟩
        rw [h4, words]
        have : trans.length = cuts.getD i 0 - cutBefore cuts i := by omega
        rw [this]; simp
    · exact ⟨true, rfl, by simp [Ne.symm hc]⟩

/-- **C79.** Whatever the (well-formed) phrase alignment, `translationSatisfiesConstraints` reads inside its arguments
and answers yes exactly when every constraint is honoured. -/
theorem C79_satisfies (d : MD) (ss : List Segm) (cuts : List Nat) (tw : List Str) (ha : Alignment ss cuts tw) :
    ∃ b, translationSatisfiesConstraints d ss cuts tw = some b ∧
      (b = true ↔ ∀ e ∈ d.srcPhrTransMap, Honours ss cuts tw e.1 e.2) := by
  unfold translationSatisfiesConstraints
  generalize d.srcPhrTransMap = m
  induction m with
  | nil => exact ⟨true, rfl, by simp⟩
  | cons e m ih =>
    obtain ⟨b, h1, h2⟩ := ih
    obtain ⟨v, h3, h4⟩ := transViolates_spec ha e.1 e.2
    rw [transViolatesSrcPhrConstraints, h3]
    cases v with
    | true =>
      refine ⟨false, rfl, ?_⟩
      simp only [Bool.false_eq_true, List.mem_cons, forall_eq_or_imp, false_iff]
      intro h
      exact absurd (h4.2 h.1) (by simp)
    | false =>
      refine ⟨b, h1, ?_⟩
      rw [h2]
      simp only [List.mem_cons, forall_eq_or_imp, h4.1 rfl, true_and]

/-- Non-vacuity: an alignment honouring a constraint and one that does not. -/
example : Alignment [(2, 3), (1, 1)] [1, 2] ["X".toList, "y".toList] ∧
    translationSatisfiesConstraints ⟨[], [((2, 3), ["X".toList])]⟩ [(2, 3), (1, 1)] [1, 2] ["X".toList, "y".toList] =
      some true ∧
    translationSatisfiesConstraints ⟨[], [((2, 3), ["X".toList])]⟩ [(1, 1), (2, 2)] [1, 2] ["X".toList, "y".toList] =
      some false := by
  refine ⟨⟨rfl, by decide, by decide, ?_⟩, by decide, by decide⟩
  intro i j hi hj hne
  simp at hi hj
  rintro ⟨x, h1, h2, h3, h4⟩
  have : i = 0 ∧ j = 1 ∨ i = 1 ∧ j = 0 := by omega
  rcases this with ⟨rfl, rfl⟩ | ⟨rfl, rfl⟩ <;> simp at h1 h2 h3 h4 <;> omega

end Thot.Meta
