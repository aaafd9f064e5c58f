import Verif.Preproc.Xml
/-!
C260–C265: XML annotations.
-/
namespace Thot.Preproc

open Thot
open Thot.SentHandler (joinWords)
open Thot.Awk (fields)

/-! ### Specification -/

/-- An annotation; the numbers are the blanks that are written between its parts. -/
inductive Ann
  | pair (b1 : Nat) (src : W) (b2 : Nat) (trg : W) (b3 : Nat)
  | limit (b1 : Nat) (n : W) (b2 : Nat)
  | forb (b1 : Nat) (f : W) (b2 : Nat)

/-- How an annotation is written. -/
def Ann.text : Ann → W
  | .pair b1 src b2 trg b3 => "<phr_pair_annot>".toList ++ List.replicate b1 ' ' ++ "<src_segm>".toList ++ src ++ "</src_segm>".toList ++
      List.replicate b2 ' ' ++ "<trg_segm>".toList ++ trg ++ "</trg_segm>".toList ++ List.replicate b3 ' ' ++ "</phr_pair_annot>".toList
  | .limit b1 n b2 => "<length_limit>".toList ++ List.replicate b1 ' ' ++ n ++ List.replicate b2 ' ' ++ "</length_limit>".toList
  | .forb b1 f b2 => "<forbidden_words>".toList ++ List.replicate b1 ' ' ++ f ++ List.replicate b2 ' ' ++ "</forbidden_words>".toList

/-- The phrases are not empty and do not contain the tag that closes them, the limit is a number and the forbidden words do not begin or end with
a blank. -/
def Ann.Ok : Ann → Prop
  | .pair _ src _ trg _ => src ≠ [] ∧ trg ≠ [] ∧ ¬ "</src_segm>".toList <:+: src ∧ ¬ "</trg_segm>".toList <:+: trg
  | .limit _ n _ => n ≠ [] ∧ ∀ c ∈ n, Vocab.isDig c = true
  | .forb _ f _ => f ≠ [] ∧ f.head? ≠ some ' ' ∧ f.getLast? ≠ some ' ' ∧ ¬ "</forbidden_words>".toList <:+: f

/-- A text outside the annotations: no annotation is opened in it. -/
def TextOk (t : W) : Prop :=
  ¬ "<phr_pair_annot>".toList <:+: t ∧ ¬ "<length_limit>".toList <:+: t ∧ ¬ "<forbidden_words>".toList <:+: t

/-- An annotated line: a text (it may be empty) and annotations followed by texts. -/
def lineOf (t : W) (l : List (Ann × W)) : W := t ++ l.flatMap fun x => x.1.text ++ x.2

/-- The line is well formed. -/
def LineOk (t : W) (l : List (Ann × W)) : Prop := TextOk t ∧ ∀ x ∈ l, x.1.Ok ∧ TextOk x.2

/-- A text, if it is not empty. -/
def textElem (t : W) : List (Bool × W) := if t = [] then [] else [(false, t)]

/-- The parts of an annotation: whether it is a tag and its text. -/
def Ann.elems : Ann → List (Bool × W)
  | .pair _ src _ trg _ => [(true, "<phr_pair_annot>".toList), (true, "<src_segm>".toList), (false, src), (true, "</src_segm>".toList),
      (true, "<trg_segm>".toList), (false, trg), (true, "</trg_segm>".toList), (true, "</phr_pair_annot>".toList)]
  | .limit _ n _ => [(true, "<length_limit>".toList), (false, n), (true, "</length_limit>".toList)]
  | .forb _ f _ => [(true, "<forbidden_words>".toList), (false, f), (true, "</forbidden_words>".toList)]

/-- The characters other than the blank. -/
def nb (s : W) : W := s.filter fun c => c != ' '

/-! ### Patterns -/

theorem lit_some {o s r : W} (h : lit o s = some r) : s = o ++ r := by
  unfold lit at h
  split at h
  · next hp =>
    obtain ⟨t, rfl⟩ := List.isPrefixOf_iff_prefix.1 hp
    rw [List.drop_left] at h
    rw [← Option.some.inj h]
  · cases h

theorem lit_append (o r : W) : lit o (o ++ r) = some r := by
  unfold lit
  rw [if_pos (List.isPrefixOf_iff_prefix.2 (List.prefix_append o r)), List.drop_left]

theorem lit_none (a x : Char) (o' v rest : W) (hx : x ∉ o') (hv : v ≠ []) (h : ¬ (a :: o') <:+: v) : lit (a :: o') (v ++ x :: rest) = none := by
  unfold lit
  rw [if_neg]
  intro hp
  obtain ⟨t, e⟩ := List.isPrefixOf_iff_prefix.1 hp
  rcases List.append_eq_append_iff.1 e with ⟨as, e1, e2⟩ | ⟨bs, e1, e2⟩
  · exact h ⟨[], as, by rw [List.nil_append]; exact e1.symm⟩
  · match v, bs, hv with
    | [], _, hv => exact hv rfl
    | b :: v, [], _ =>
      rw [List.append_nil] at e1
      exact h ⟨[], [], by rw [← e1]; simp⟩
    | b :: v, y :: bs, _ =>
      rw [List.cons_append] at e1 e2
      have hy : y = x := by
        have := List.cons.inj e2
        exact this.1.symm
      have : x ∈ o' := by
        rw [(List.cons.inj e1).2, hy]; simp
      exact hx this

theorem lit_none' (o v : W) (h : ¬ o <:+: v) : lit o v = none := by
  unfold lit
  rw [if_neg]
  intro hp
  exact h (List.isPrefixOf_iff_prefix.1 hp).isInfix

theorem dropB_blanks (b : Nat) (c : Char) (r : W) (hc : c ≠ ' ') : dropB (List.replicate b ' ' ++ c :: r) = c :: r := by
  unfold dropB
  induction b with
  | zero => rw [List.replicate_zero, List.nil_append, List.dropWhile_cons_of_neg (by simpa using hc)]
  | succ b ih => rw [List.replicate_succ, List.cons_append, List.dropWhile_cons_of_pos (by simp), ih]

theorem lazy_some {α : Type} (k : W → Option α) : ∀ (s g : W) (r : α), lazy1 k s = some (g, r) → ∃ t, s = g ++ t ∧ k t = some r := by
  intro s
  induction s with
  | nil => intro g r h; cases h
  | cons c cs ih =>
    intro g r h
    rw [lazy1] at h
    split at h
    · next r' hk =>
      obtain ⟨rfl, rfl⟩ := Prod.mk.inj (Option.some.inj h)
      exact ⟨cs, rfl, hk⟩
    · obtain ⟨x, hx, e⟩ := Option.map_eq_some_iff.1 h
      obtain ⟨rfl, rfl⟩ := Prod.mk.inj e
      obtain ⟨t, e1, e2⟩ := ih x.1 x.2 hx
      exact ⟨t, by rw [e1]; rfl, e2⟩

theorem lazy_eq {α : Type} (k : W → Option α) (t : W) (r : α) (hk : k t = some r) : ∀ g : W, g ≠ [] →
    (∀ v, v ≠ [] → v <:+ g.tail → k (v ++ t) = none) → lazy1 k (g ++ t) = some (g, r) := by
  intro g
  induction g with
  | nil => intro h; exact absurd rfl h
  | cons c g ih =>
    intro _ h
    rw [List.cons_append, lazy1]
    cases g with
    | nil => rw [List.nil_append, hk]
    | cons d g =>
      rw [h (d :: g) (by simp) (List.suffix_refl _)]
      simp only
      rw [ih (by simp) (fun v hv hs => h v hv (hs.trans (List.suffix_cons d g)))]
      rfl

theorem starB_eq {α : Type} (k : W → Option α) (c : Char) (s : W) (hc : c ≠ ' ') (r : α) (h : k (c :: s) = some r) (b : Nat) :
    starB k (List.replicate b ' ' ++ c :: s) = some r := by
  induction b with
  | zero => rw [List.replicate_zero, List.nil_append, starB, if_neg hc, h]
  | succ b ih => rw [List.replicate_succ, List.cons_append, starB, if_pos rfl, ih]

theorem starB_some {α : Type} (k : W → Option α) (r : α) : ∀ s : W, starB k s = some r → ∃ t, k t = some r ∧ ∃ b, s = List.replicate b ' ' ++ t := by
  intro s
  induction s with
  | nil => intro h; exact ⟨[], h, 0, rfl⟩
  | cons c cs ih =>
    intro h
    rw [starB] at h
    split at h
    · next hc =>
      subst hc
      split at h
      · next r' hk =>
        cases h
        obtain ⟨t, h1, b, e⟩ := ih hk
        exact ⟨t, h1, b + 1, by rw [e]; rfl⟩
      · exact ⟨_, h, 0, rfl⟩
    · exact ⟨_, h, 0, rfl⟩

/-! ### Nothing but blanks is lost -/

theorem nb_append (a b : W) : nb (a ++ b) = nb a ++ nb b := List.filter_append _ _

theorem nb_blanks (b : Nat) : nb (List.replicate b ' ') = [] := by
  unfold nb
  rw [List.filter_eq_nil_iff]
  intro c hc
  rw [List.eq_of_mem_replicate hc]; simp

theorem dropB_form (s : W) : ∃ b, s = List.replicate b ' ' ++ dropB s := by
  induction s with
  | nil => exact ⟨0, rfl⟩
  | cons c s ih =>
    unfold dropB at *
    by_cases h : c = ' '
    · subst h
      obtain ⟨b, e⟩ := ih
      refine ⟨b + 1, ?_⟩
      rw [List.dropWhile_cons_of_pos (by simp), List.replicate_succ, List.cons_append, ← e]
    · exact ⟨0, by rw [List.dropWhile_cons_of_neg (by simpa using h)]; rfl⟩

/-- A match: the elements contain the characters of the matched text, which is not empty. -/
def Good (s : W) (r : List (Bool × W) × W) : Prop := ∃ m, s = m ++ r.2 ∧ m ≠ [] ∧ nb (r.1.flatMap Prod.snd) = nb m

theorem dic_good {s : W} {r : List (Bool × W) × W} (h : dicAt s = some r) : Good s r := by
  unfold dicAt at h
  obtain ⟨a, h1, h⟩ := Option.bind_eq_some_iff.1 h
  obtain ⟨b, h2, h⟩ := Option.bind_eq_some_iff.1 h
  obtain ⟨⟨src, trg, rest⟩, h3, rfl⟩ := Option.map_eq_some_iff.1 h
  obtain ⟨t, e3, h3⟩ := lazy_some _ _ _ _ h3
  unfold afterSrc at h3
  obtain ⟨c, h4, h3⟩ := Option.bind_eq_some_iff.1 h3
  obtain ⟨d, h5, h3⟩ := Option.bind_eq_some_iff.1 h3
  obtain ⟨u, e6, h6⟩ := lazy_some _ _ _ _ h3
  unfold afterTrg at h6
  obtain ⟨e, h7, h8⟩ := Option.bind_eq_some_iff.1 h6
  have e1 := lit_some h1
  have e2 := lit_some h2
  have e4 := lit_some h4
  have e5 := lit_some h5
  have e7 := lit_some h7
  have e8 := lit_some h8
  obtain ⟨b1, f1⟩ := dropB_form a
  obtain ⟨b2, f2⟩ := dropB_form c
  obtain ⟨b3, f3⟩ := dropB_form e
  rw [e2] at f1
  rw [e5] at f2
  rw [e8] at f3
  refine ⟨oGrp ++ List.replicate b1 ' ' ++ oSrc ++ src ++ cSrc ++ List.replicate b2 ' ' ++ oTrg ++ trg ++ cTrg ++ List.replicate b3 ' ' ++ cGrp, ?_, ?_, ?_⟩
  · rw [e1, f1, e3, e4, f2, e6, e7, f3]
    simp only [List.append_assoc]
  · rw [show oGrp = '<' :: oGrp.tail from rfl]; simp
  · simp only [nb_append, nb_blanks, dicElems, List.flatMap_cons, List.flatMap_nil, List.append_nil, List.append_assoc, List.nil_append]

theorem len_good {s : W} {r : List (Bool × W) × W} (h : lenAt s = some r) : Good s r := by
  unfold lenAt at h
  obtain ⟨a, h1, h⟩ := Option.bind_eq_some_iff.1 h
  split at h
  · cases h
  obtain ⟨rest, h2, rfl⟩ := Option.map_eq_some_iff.1 h
  have e1 := lit_some h1
  have e2 := lit_some h2
  obtain ⟨b1, f1⟩ := dropB_form a
  obtain ⟨b2, f2⟩ := dropB_form (digitsOf (dropB a)).2
  have f3 : (digitsOf (dropB a)).1 ++ (digitsOf (dropB a)).2 = dropB a := List.takeWhile_append_dropWhile
  generalize (digitsOf (dropB a)).1 = n at *
  generalize (digitsOf (dropB a)).2 = q at *
  refine ⟨oLen ++ List.replicate b1 ' ' ++ n ++ List.replicate b2 ' ' ++ cLen, ?_, ?_, ?_⟩
  · rw [e2] at f2
    rw [← f3, f2] at f1
    rw [e1, f1]
    simp only [List.append_assoc]
  · rw [show oLen = '<' :: oLen.tail from rfl]; simp
  · simp only [nb_append, nb_blanks, List.flatMap_cons, List.flatMap_nil, List.append_nil, List.append_assoc, List.nil_append]

theorem forb_good {s : W} {r : List (Bool × W) × W} (h : forbAt s = some r) : Good s r := by
  unfold forbAt at h
  obtain ⟨a, h1, h⟩ := Option.bind_eq_some_iff.1 h
  obtain ⟨⟨f, rest⟩, h2, rfl⟩ := Option.map_eq_some_iff.1 h
  obtain ⟨t, h3, b1, f1⟩ := starB_some _ _ _ h2
  obtain ⟨u, e4, h4⟩ := lazy_some _ _ _ _ h3
  obtain ⟨b2, f2⟩ := dropB_form u
  have e1 := lit_some h1
  have e5 := lit_some h4
  refine ⟨oForb ++ List.replicate b1 ' ' ++ f ++ List.replicate b2 ' ' ++ cForb, ?_, ?_, ?_⟩
  · rw [e5] at f2
    rw [e1, f1, e4, f2]
    simp only [List.append_assoc]
  · rw [show oForb = '<' :: oForb.tail from rfl]; simp
  · simp only [nb_append, nb_blanks, List.flatMap_cons, List.flatMap_nil, List.append_nil, List.append_assoc, List.nil_append]

theorem ann_good {s : W} {r : List (Bool × W) × W} (h : annAt s = some r) : Good s r := by
  unfold annAt at h
  split at h
  · next h1 => cases h; exact dic_good h1
  · split at h
    · next h1 => cases h; exact len_good h1
    · exact forb_good h

theorem flush_text (acc : W) : (flush acc).flatMap Prod.snd = acc := by
  unfold flush
  split
  · next h => rw [h]; rfl
  · simp

theorem skelGo_nb : ∀ (s : W) (k : Nat) (acc : W), nb ((skelGo k acc s).flatMap Prod.snd) = nb acc ++ nb (s.drop k) := by
  intro s
  induction s with
  | nil =>
    intro k acc
    have : skelGo k acc [] = flush acc := by cases k <;> rfl
    rw [this, flush_text, List.drop_nil]
    exact (List.append_nil _).symm
  | cons c cs ih =>
    intro k acc
    cases k with
    | succ k => rw [skelGo, ih, List.drop_succ_cons]
    | zero =>
      rw [skelGo, List.drop_zero]
      cases h : annAt (c :: cs) with
      | none =>
        simp only
        rw [ih, nb_append, List.drop_zero, List.append_assoc, ← nb_append]; rfl
      | some r =>
        obtain ⟨m, e, hm, hnb⟩ := ann_good h
        simp only
        rw [List.flatMap_append, List.flatMap_append, flush_text, nb_append, nb_append, ih, hnb]
        obtain ⟨d, m', rfl⟩ := List.exists_cons_of_ne_nil hm
        rw [List.cons_append] at e
        obtain ⟨rfl, e2⟩ := List.cons.inj e
        clear ih hm h
        have : cs.drop (cs.length - r.2.length) = r.2 := by
          rw [e2, List.length_append, Nat.add_sub_cancel, List.drop_left]
        rw [this, show nb [] = [] from rfl, List.nil_append, ← nb_append, List.cons_append, e]

/-! ### Well-formed lines -/

theorem pair_at (b1 : Nat) (src : W) (b2 : Nat) (trg : W) (b3 : Nat) (h : (Ann.pair b1 src b2 trg b3).Ok) (rest : W) :
    annAt ((Ann.pair b1 src b2 trg b3).text ++ rest) = some ((Ann.pair b1 src b2 trg b3).elems, rest) := by
  obtain ⟨h1, h2, h3, h4⟩ := h
  have ht : lazy1 afterTrg (trg ++ (cTrg ++ (List.replicate b3 ' ' ++ (cGrp ++ rest)))) = some (trg, rest) := by
    apply lazy_eq _ _ _ _ _ h2
    · intro v hv hs
      unfold afterTrg
      rw [show cTrg = '<' :: cTrg.tail from rfl, List.cons_append, lit_none '<' '<' cTrg.tail v _ (by decide) hv]
      · rfl
      · intro hi
        exact h4 (hi.trans (hs.trans (List.tail_suffix _)).isInfix)
    · unfold afterTrg
      rw [lit_append, Option.bind_some, show cGrp = '<' :: cGrp.tail from rfl, List.cons_append, dropB_blanks _ _ _ (by decide),
        ← List.cons_append, lit_append]
  have hs : lazy1 afterSrc (src ++ (cSrc ++ (List.replicate b2 ' ' ++ (oTrg ++ (trg ++ (cTrg ++ (List.replicate b3 ' ' ++ (cGrp ++ rest)))))))) =
      some (src, (trg, rest)) := by
    apply lazy_eq _ _ _ _ _ h1
    · intro v hv hs
      unfold afterSrc
      rw [show cSrc = '<' :: cSrc.tail from rfl, List.cons_append, lit_none '<' '<' cSrc.tail v _ (by decide) hv]
      · rfl
      · intro hi
        exact h3 (hi.trans (hs.trans (List.tail_suffix _)).isInfix)
    · unfold afterSrc
      rw [lit_append, Option.bind_some, show oTrg = '<' :: oTrg.tail from rfl, List.cons_append, dropB_blanks _ _ _ (by decide),
        ← List.cons_append, lit_append, Option.bind_some, ht]
  have e : (Ann.pair b1 src b2 trg b3).text ++ rest = oGrp ++ (List.replicate b1 ' ' ++ (oSrc ++
      (src ++ (cSrc ++ (List.replicate b2 ' ' ++ (oTrg ++ (trg ++ (cTrg ++ (List.replicate b3 ' ' ++ (cGrp ++ rest)))))))))) := by
    show ((((((((((oGrp ++ _) ++ oSrc) ++ _) ++ cSrc) ++ _) ++ oTrg) ++ _) ++ cTrg) ++ _) ++ cGrp) ++ rest = _
    simp only [List.append_assoc]
  have : dicAt ((Ann.pair b1 src b2 trg b3).text ++ rest) = some ((Ann.pair b1 src b2 trg b3).elems, rest) := by
    unfold dicAt
    rw [e, lit_append, Option.bind_some]
    rw [show oSrc = '<' :: oSrc.tail from rfl, List.cons_append, dropB_blanks _ _ _ (by decide), ← List.cons_append, lit_append,
      Option.bind_some, hs]
    rfl
  unfold annAt
  rw [this]

theorem dropB_cons (c : Char) (s : W) (hc : c ≠ ' ') : dropB (c :: s) = c :: s := by
  unfold dropB
  rw [List.dropWhile_cons_of_neg (by simpa using hc)]

theorem dropB_head (s : W) : (dropB s).head? ≠ some ' ' := by
  unfold dropB
  intro h
  have := List.head?_dropWhile_not (fun c : Char => c == ' ') s
  rw [h] at this
  simp at this

theorem limit_at (b1 : Nat) (n : W) (b2 : Nat) (h : (Ann.limit b1 n b2).Ok) (rest : W) :
    annAt ((Ann.limit b1 n b2).text ++ rest) = some ((Ann.limit b1 n b2).elems, rest) := by
  obtain ⟨h1, h2⟩ := h
  have e : (Ann.limit b1 n b2).text ++ rest = oLen ++ (List.replicate b1 ' ' ++ (n ++ (List.replicate b2 ' ' ++ (cLen ++ rest)))) := by
    show ((((oLen ++ _) ++ _) ++ _) ++ cLen) ++ rest = _
    simp only [List.append_assoc]
  obtain ⟨d, n', rfl⟩ := List.exists_cons_of_ne_nil h1
  have hd : d ≠ ' ' := by
    rintro rfl
    have := h2 ' ' List.mem_cons_self
    revert this; decide
  have hnd : ∃ x y, List.replicate b2 ' ' ++ (cLen ++ rest) = x :: y ∧ Vocab.isDig x = false := by
    cases b2 with
    | zero => exact ⟨'<', cLen.tail ++ rest, rfl, by decide⟩
    | succ b => exact ⟨' ', List.replicate b ' ' ++ (cLen ++ rest), rfl, by decide⟩
  have hdig : digitsOf (d :: n' ++ (List.replicate b2 ' ' ++ (cLen ++ rest))) = (d :: n', List.replicate b2 ' ' ++ (cLen ++ rest)) := by
    obtain ⟨x, y, e, hx⟩ := hnd
    unfold digitsOf
    rw [List.takeWhile_append_of_pos h2, List.dropWhile_append_of_pos h2, e, List.takeWhile_cons_of_neg (by simp [hx]),
      List.dropWhile_cons_of_neg (by simp [hx]), List.append_nil]
  have hdic : dicAt ((Ann.limit b1 (d :: n') b2).text ++ rest) = none := by
    unfold dicAt
    have : lit oGrp ((Ann.limit b1 (d :: n') b2).text ++ rest) = none := by
      rw [e]; rfl
    rw [this]; rfl
  unfold annAt
  rw [hdic]
  simp only
  have : lenAt ((Ann.limit b1 (d :: n') b2).text ++ rest) = some ((Ann.limit b1 (d :: n') b2).elems, rest) := by
    unfold lenAt
    rw [e, lit_append, Option.bind_some, List.cons_append, dropB_blanks _ _ _ hd, ← List.cons_append, hdig]
    simp only
    rw [if_neg (by simp), show cLen = '<' :: cLen.tail from rfl, List.cons_append, dropB_blanks _ _ _ (by decide), ← List.cons_append, lit_append]
    rfl
  rw [this]

theorem dropB_suffix (v t : W) (hv : v ≠ []) (hl : v.getLast? ≠ some ' ') : ∃ v', v' ≠ [] ∧ v' <:+ v ∧ dropB (v ++ t) = v' ++ t := by
  induction v with
  | nil => exact absurd rfl hv
  | cons c v ih =>
    by_cases h : c = ' '
    · subst h
      have hv' : v ≠ [] := by rintro rfl; exact hl rfl
      have hl' : v.getLast? ≠ some ' ' := by
        rw [List.getLast?_cons_of_ne_nil hv'] at hl; exact hl
      obtain ⟨v', h1, h2, h3⟩ := ih hv' hl'
      refine ⟨v', h1, h2.trans (List.suffix_cons _ _), ?_⟩
      rw [← h3]
      unfold dropB
      rw [List.cons_append, List.dropWhile_cons_of_pos (by simp)]
    · exact ⟨c :: v, by simp, List.suffix_refl _, by rw [List.cons_append, dropB_cons c _ h]⟩

theorem forb_at (b1 : Nat) (f : W) (b2 : Nat) (h : (Ann.forb b1 f b2).Ok) (rest : W) :
    annAt ((Ann.forb b1 f b2).text ++ rest) = some ((Ann.forb b1 f b2).elems, rest) := by
  obtain ⟨h1, h2, h3, h4⟩ := h
  have e : (Ann.forb b1 f b2).text ++ rest = oForb ++ (List.replicate b1 ' ' ++ (f ++ (List.replicate b2 ' ' ++ (cForb ++ rest)))) := by
    show ((((oForb ++ _) ++ _) ++ _) ++ cForb) ++ rest = _
    simp only [List.append_assoc]
  have hnd : ∃ x y, List.replicate b2 ' ' ++ (cForb ++ rest) = x :: y ∧ x ∉ cForb.tail := by
    cases b2 with
    | zero => exact ⟨'<', cForb.tail ++ rest, rfl, by decide⟩
    | succ b => exact ⟨' ', List.replicate b ' ' ++ (cForb ++ rest), rfl, by decide⟩
  have hl : lazy1 afterForb (f ++ (List.replicate b2 ' ' ++ (cForb ++ rest))) = some (f, rest) := by
    apply lazy_eq _ _ _ _ _ h1
    · intro v hv hs
      obtain ⟨x, y, e, hx⟩ := hnd
      have hsf : v <:+ f := hs.trans (List.tail_suffix _)
      have hlast : v.getLast? ≠ some ' ' := by
        obtain ⟨p, rfl⟩ := hsf
        intro hv2
        apply h3
        rw [List.getLast?_append, hv2]; rfl
      obtain ⟨v', k1, k2, k3⟩ := dropB_suffix v (x :: y) hv hlast
      unfold afterForb
      rw [e, k3, show cForb = '<' :: cForb.tail from rfl, lit_none '<' x cForb.tail v' y hx k1]
      intro hi
      exact h4 (hi.trans (k2.trans hsf).isInfix)
    · unfold afterForb
      rw [show cForb = '<' :: cForb.tail from rfl, List.cons_append, dropB_blanks _ _ _ (by decide), ← List.cons_append, lit_append]
  obtain ⟨c, f', rfl⟩ := List.exists_cons_of_ne_nil h1
  have hc : c ≠ ' ' := by rintro rfl; exact h2 rfl
  have hdic : dicAt ((Ann.forb b1 (c :: f') b2).text ++ rest) = none := by
    unfold dicAt
    have : lit oGrp ((Ann.forb b1 (c :: f') b2).text ++ rest) = none := by
      rw [e]; rfl
    rw [this]; rfl
  have hlen : lenAt ((Ann.forb b1 (c :: f') b2).text ++ rest) = none := by
    unfold lenAt
    have : lit oLen ((Ann.forb b1 (c :: f') b2).text ++ rest) = none := by
      rw [e]; rfl
    rw [this]; rfl
  unfold annAt
  rw [hdic]
  simp only
  rw [hlen]
  simp only
  unfold forbAt
  rw [e, lit_append, Option.bind_some, List.cons_append, starB_eq (lazy1 afterForb) c _ hc (c :: f', rest) (by rw [← List.cons_append]; exact hl)]
  rfl

theorem ann_at (a : Ann) (h : a.Ok) (rest : W) : annAt (a.text ++ rest) = some (a.elems, rest) := by
  cases a with
  | pair b1 src b2 trg b3 => exact pair_at b1 src b2 trg b3 h rest
  | limit b1 n b2 => exact limit_at b1 n b2 h rest
  | forb b1 f b2 => exact forb_at b1 f b2 h rest

theorem text_at (v rest : W) (hv : v ≠ []) (h : TextOk v) (hr : rest = [] ∨ rest.head? = some '<') : annAt (v ++ rest) = none := by
  have key : ∀ o' : W, '<' ∉ o' → ¬ ('<' :: o') <:+: v → lit ('<' :: o') (v ++ rest) = none := by
    intro o' ho hn
    rcases hr with rfl | hr
    · rw [List.append_nil]; exact lit_none' _ _ hn
    · cases rest with
      | nil => cases hr
      | cons x rest =>
        cases Option.some.inj hr
        exact lit_none '<' '<' o' v rest ho hv hn
  have e1 : lit oGrp (v ++ rest) = none := key oGrp.tail (by decide) h.1
  have e2 : lit oLen (v ++ rest) = none := key oLen.tail (by decide) h.2.1
  have e3 : lit oForb (v ++ rest) = none := key oForb.tail (by decide) h.2.2
  unfold annAt dicAt lenAt forbAt
  rw [e1, e2, e3]
  rfl

theorem skel_text (t rest : W) (hr : rest = [] ∨ rest.head? = some '<') : ∀ (acc : W), TextOk t →
    skelGo 0 acc (t ++ rest) = skelGo 0 (acc ++ t) rest := by
  induction t with
  | nil => intro acc _; rw [List.append_nil]; rfl
  | cons c t ih =>
    intro acc h
    have ht : TextOk t := by
      refine ⟨fun hi => h.1 ?_, fun hi => h.2.1 ?_, fun hi => h.2.2 ?_⟩ <;> exact hi.trans (List.suffix_cons c t).isInfix
    have := text_at (c :: t) rest (by simp) h hr
    rw [List.cons_append] at this
    rw [List.cons_append, skelGo, this]
    simp only
    rw [ih _ ht, List.append_assoc]; rfl

theorem skel_skip (acc : W) : ∀ (s : W) (k : Nat), skelGo k acc s = skelGo 0 acc (s.drop k) := by
  intro s
  induction s with
  | nil => intro k; cases k <;> rfl
  | cons c s ih =>
    intro k
    cases k with
    | zero => rfl
    | succ k => rw [skelGo, ih, List.drop_succ_cons]

theorem ann_head (a : Ann) : ∃ s, a.text = '<' :: s := by
  cases a with
  | pair b1 src b2 trg b3 => exact ⟨_, rfl⟩
  | limit b1 n b2 => exact ⟨_, rfl⟩
  | forb b1 f b2 => exact ⟨_, rfl⟩

theorem skel_ann (a : Ann) (h : a.Ok) (acc rest : W) : skelGo 0 acc (a.text ++ rest) = flush acc ++ (a.elems ++ skelGo 0 [] rest) := by
  have h1 := ann_at a h rest
  obtain ⟨s, e⟩ := ann_head a
  rw [e] at h1 ⊢
  rw [List.cons_append] at h1 ⊢
  rw [skelGo, h1]
  simp only
  rw [skel_skip, List.length_append, Nat.add_sub_cancel, List.drop_left]

theorem skel_line : ∀ (l : List (Ann × W)) (t acc : W), LineOk t l →
    skelGo 0 acc (lineOf t l) = flush (acc ++ t) ++ l.flatMap fun x => x.1.elems ++ textElem x.2 := by
  intro l
  induction l with
  | nil =>
    intro t acc h
    unfold lineOf
    rw [List.flatMap_nil, List.flatMap_nil, skel_text t [] (Or.inl rfl) acc h.1, List.append_nil]; rfl
  | cons x l ih =>
    intro t acc h
    unfold lineOf
    have hx := h.2 x List.mem_cons_self
    have hh : ((x :: l).flatMap fun x => x.1.text ++ x.2).head? = some '<' := by
      obtain ⟨s, e⟩ := ann_head x.1
      rw [List.flatMap_cons, e]; rfl
    rw [skel_text t _ (Or.inr hh) acc h.1, List.flatMap_cons, List.append_assoc, skel_ann x.1 hx.1]
    have := ih x.2 [] ⟨hx.2, fun y hy => h.2 y (List.mem_cons_of_mem _ hy)⟩
    unfold lineOf at this
    rw [this, List.flatMap_cons, List.nil_append]
    simp only [List.append_assoc]
    rfl

/-- Parsing an annotated line. Of any line only blanks can be lost; of a line made of texts and annotations the result is its parts: the texts
and, for each annotation, its tags and phrases. -/
theorem C260_skeleton (s : W) :
    nb ((skeleton s).flatMap Prod.snd) = nb s ∧
    ∀ t l, s = lineOf t l → LineOk t l → skeleton s = textElem t ++ l.flatMap fun x => x.1.elems ++ textElem x.2 := by
  constructor
  · have := skelGo_nb s 0 []
    unfold skeleton
    rw [this]; rfl
  · rintro t l rfl h
    unfold skeleton
    rw [skel_line l t [] h]; rfl

/-- A line with the three kinds of annotations. -/
def exLine : List (Ann × W) :=
  [(.pair 1 "la casa ".toList 0 "the <unk>".toList 2, " es ".toList), (.limit 0 "12".toList 1, []), (.forb 1 "a b".toList 1, "< x".toList)]

/-- Whether a text occurs in another one. -/
def hasInfix (o : W) : W → Bool
  | [] => o.isPrefixOf []
  | c :: t => o.isPrefixOf (c :: t) || hasInfix o t

theorem not_hasInfix (o : W) : ∀ t : W, hasInfix o t = false → ¬ o <:+: t := by
  intro t
  induction t with
  | nil =>
    intro h hi
    rw [hasInfix] at h
    rw [List.infix_nil.1 hi] at h
    cases h
  | cons c t ih =>
    intro h hi
    rw [hasInfix, Bool.or_eq_false_iff] at h
    rcases List.infix_cons_iff.1 hi with hp | hi
    · rw [List.isPrefixOf_iff_prefix.2 hp] at h
      cases h.1
    · exact ih h.2 hi

/-- The hypotheses of `C260_skeleton` (and of the theorems below) hold of that line. -/
theorem exLine_ok : LineOk "mi ".toList exLine := by
  refine ⟨⟨not_hasInfix _ _ (by decide +kernel), not_hasInfix _ _ (by decide +kernel), not_hasInfix _ _ (by decide +kernel)⟩, ?_⟩
  intro x hx
  unfold exLine at hx
  simp only [List.mem_cons, List.not_mem_nil, or_false] at hx
  rcases hx with rfl | rfl | rfl
  · exact ⟨⟨by decide, by decide, not_hasInfix _ _ (by decide +kernel), not_hasInfix _ _ (by decide +kernel)⟩,
      not_hasInfix _ _ (by decide +kernel), not_hasInfix _ _ (by decide +kernel), not_hasInfix _ _ (by decide +kernel)⟩
  · exact ⟨⟨by decide, by decide⟩, not_hasInfix _ _ (by decide +kernel), not_hasInfix _ _ (by decide +kernel), not_hasInfix _ _ (by decide +kernel)⟩
  · exact ⟨⟨by decide, by decide, by decide, not_hasInfix _ _ (by decide +kernel)⟩,
      not_hasInfix _ _ (by decide +kernel), not_hasInfix _ _ (by decide +kernel), not_hasInfix _ _ (by decide +kernel)⟩

end Thot.Preproc
