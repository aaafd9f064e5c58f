import Verif.Preproc.XmlProps
import Verif.Preproc.CategProps
/-!
C261–C265: consequences of the parsing of annotations, and the tokenizer.
-/
namespace Thot.Preproc

open Thot
open Thot.SentHandler (joinWords)
open Thot.Awk (fields)

/-! ### Specification -/

/-- A text without the blanks at its ends, if something is left. -/
def kept (t : W) : List W := if strip t = [] then [] else [strip t]

/-- What is left of an annotation: the source phrase. -/
def Ann.kept : Ann → List W
  | .pair _ src _ _ _ => Preproc.kept src
  | _ => []

/-- The tags are kept and the texts are lower-cased. -/
def lowElems (low : W → W) : Ann → List W
  | .pair _ src _ trg _ => ["<phr_pair_annot>".toList, "<src_segm>".toList, strip (low src), "</src_segm>".toList, "<trg_segm>".toList,
      strip (low trg), "</trg_segm>".toList, "</phr_pair_annot>".toList]
  | .limit _ n _ => ["<length_limit>".toList, strip (low n), "</length_limit>".toList]
  | .forb _ f _ => ["<forbidden_words>".toList, strip (low f), "</forbidden_words>".toList]

/-- A text that is not empty, lower-cased. -/
def lowText (low : W → W) (t : W) : List W := if t = [] then [] else [strip (low t)]

/-- The words of an annotation after the categorization. -/
def catWords (cz : W → W) : Ann → List W
  | .pair _ src _ trg _ => "<phr_pair_annot>".toList :: "<src_segm>".toList :: (categAnn cz (fields ' ' src) (fields ' ' trg)).1 ++
      "</src_segm>".toList :: "<trg_segm>".toList :: (categAnn cz (fields ' ' src) (fields ' ' trg)).2 ++ ["</trg_segm>".toList, "</phr_pair_annot>".toList]
  | .limit _ n _ => ["<length_limit>".toList, n, "</length_limit>".toList]
  | .forb _ f _ => "<forbidden_words>".toList :: fields ' ' f ++ ["</forbidden_words>".toList]

/-- What `findall` gives: texts that occur one after the other. -/
def Found : List W → W → Prop
  | [], _ => True
  | m :: ms, s => ∃ g r, s = g ++ (m ++ r) ∧ Found ms r

/-! ### remove_xml_annotations -/

/-- The last element. -/
def lastOr (p : Option (Bool × W)) (l : List (Bool × W)) : Option (Bool × W) :=
  match l.getLast? with
  | some x => some x
  | none => p

theorem remove_append (l l' : List (Bool × W)) : ∀ p, removeGo p (l ++ l') = removeGo p l ++ removeGo (lastOr p l) l' := by
  induction l with
  | nil => intro p; rfl
  | cons x l ih =>
    intro p
    rw [List.cons_append, removeGo, ih, removeGo, List.append_assoc]
    congr 2
    unfold lastOr
    rw [List.getLast?_cons]
    cases l.getLast? <;> rfl

theorem remove_text (t : W) (p : Option (Bool × W)) (h : keeps p = true) : removeGo p (textElem t) = kept t := by
  unfold textElem kept
  by_cases ht : t = []
  · rw [if_pos ht, ht]; rfl
  · rw [if_neg ht, removeGo, removeGo, List.append_nil]
    simp only [true_and]
    by_cases hs : strip t = []
    · rw [if_neg (fun hc => hc.1 hs), if_pos hs]
    · rw [if_pos ⟨hs, h⟩, if_neg hs]

theorem remove_tag (w : W) (p : Option (Bool × W)) (xs : List (Bool × W)) : removeGo p ((true, w) :: xs) = removeGo (some (true, w)) xs := by
  rw [removeGo, if_neg (fun h => absurd h.1 (by simp)), List.nil_append]

theorem remove_kept (w : W) (p : Option (Bool × W)) (xs : List (Bool × W)) (h : keeps p = true) :
    removeGo p ((false, w) :: xs) = kept w ++ removeGo (some (false, w)) xs := by
  rw [removeGo]
  congr 1
  unfold kept
  by_cases hs : strip w = []
  · rw [if_neg (fun hc => hc.2.1 hs), if_pos hs]
  · rw [if_pos ⟨rfl, hs, h⟩, if_neg hs]

theorem remove_dropped (w : W) (p : Option (Bool × W)) (xs : List (Bool × W)) (h : keeps p = false) :
    removeGo p ((false, w) :: xs) = removeGo (some (false, w)) xs := by
  rw [removeGo, if_neg (fun hc => by rw [h] at hc; exact absurd hc.2.2 (by simp)), List.nil_append]

theorem remove_ann (a : Ann) (p : Option (Bool × W)) : removeGo p a.elems = a.kept ∧ keeps (lastOr p a.elems) = true := by
  have k1 : keeps (some (true, oSrc)) = true := by decide +kernel
  have k2 : keeps (some (true, oTrg)) = false := by decide +kernel
  have k3 : keeps (some (true, oLen)) = false := by decide +kernel
  have k4 : keeps (some (true, oForb)) = false := by decide +kernel
  have k5 : keeps (some (true, cGrp)) = true := by decide +kernel
  have k6 : keeps (some (true, cLen)) = true := by decide +kernel
  have k7 : keeps (some (true, cForb)) = true := by decide +kernel
  cases a with
  | pair b1 src b2 trg b3 =>
    refine ⟨?_, k5⟩
    show removeGo p [(true, oGrp), (true, oSrc), (false, src), (true, cSrc), (true, oTrg), (false, trg), (true, cTrg), (true, cGrp)] = _
    rw [remove_tag, remove_tag, remove_kept _ _ _ k1, remove_tag, remove_tag, remove_dropped _ _ _ k2, remove_tag, remove_tag]
    exact List.append_nil _
  | limit b1 n b2 =>
    refine ⟨?_, k6⟩
    show removeGo p [(true, oLen), (false, n), (true, cLen)] = _
    rw [remove_tag, remove_dropped _ _ _ k3, remove_tag]; rfl
  | forb b1 f b2 =>
    refine ⟨?_, k7⟩
    show removeGo p [(true, oForb), (false, f), (true, cForb)] = _
    rw [remove_tag, remove_dropped _ _ _ k4, remove_tag]; rfl

theorem keeps_text (p : Option (Bool × W)) (t : W) (h : keeps p = true) : keeps (lastOr p (textElem t)) = true := by
  unfold textElem
  by_cases ht : t = []
  · rw [if_pos ht]; exact h
  · rw [if_neg ht]; rfl

theorem remove_all (l : List (Ann × W)) : ∀ p, keeps p = true →
    removeGo p (l.flatMap fun x => x.1.elems ++ textElem x.2) = l.flatMap fun x => x.1.kept ++ kept x.2 := by
  induction l with
  | nil => intro p _; rfl
  | cons x l ih =>
    intro p h
    rw [List.flatMap_cons, List.flatMap_cons, remove_append, remove_append, (remove_ann x.1 p).1, remove_text _ _ (remove_ann x.1 p).2, ih]
    have e : lastOr p (x.1.elems ++ textElem x.2) = lastOr (lastOr p x.1.elems) (textElem x.2) := by
      unfold lastOr
      rw [List.getLast?_append]
      cases (textElem x.2).getLast? <;> rfl
    rw [e]
    exact keeps_text _ _ (remove_ann x.1 p).2

/-- Removing the annotations of a line leaves its texts and the source phrases of the annotated phrases, in their order and each without the
blanks at its ends, separated by one blank. -/
theorem C261_remove_annotations (t : W) (l : List (Ann × W)) (h : LineOk t l) :
    removeXml (lineOf t l) = joinWords (kept t ++ l.flatMap fun x => x.1.kept ++ kept x.2) := by
  unfold removeXml
  rw [(C260_skeleton _).2 t l rfl h, remove_append, remove_text t none rfl, remove_all]
  exact keeps_text none t rfl

example : removeXml (lineOf "mi ".toList exLine) = "mi la casa es < x".toList := by
  rw [C261_remove_annotations _ _ exLine_ok]; decide +kernel

/-! ### lowercase -/

theorem strip_tag {t : W} (h1 : t.head? ≠ some ' ') (h2 : t.getLast? ≠ some ' ') : strip t = t := by
  unfold strip
  have hd : ∀ u : W, u.head? ≠ some ' ' → u.dropWhile (fun c => c == ' ') = u := by
    intro u hu
    cases u with
    | nil => rfl
    | cons c u => rw [List.dropWhile_cons_of_neg]; intro hc; apply hu; rw [List.head?_cons, show c = ' ' from by simpa using hc]
  rw [hd t h1, hd t.reverse (by rw [List.head?_reverse]; exact h2), List.reverse_reverse]

theorem low_ann (low : W → W) (a : Ann) : (a.elems.map fun x => if x.1 then strip x.2 else strip (low x.2)) = lowElems low a := by
  have k1 : strip oGrp = oGrp := by decide +kernel
  have k2 : strip oSrc = oSrc := by decide +kernel
  have k3 : strip cSrc = cSrc := by decide +kernel
  have k4 : strip oTrg = oTrg := by decide +kernel
  have k5 : strip cTrg = cTrg := by decide +kernel
  have k6 : strip cGrp = cGrp := by decide +kernel
  have k7 : strip oLen = oLen := by decide +kernel
  have k8 : strip cLen = cLen := by decide +kernel
  have k9 : strip oForb = oForb := by decide +kernel
  have k10 : strip cForb = cForb := by decide +kernel
  cases a with
  | pair b1 src b2 trg b3 =>
    show [strip oGrp, strip oSrc, strip (low src), strip cSrc, strip oTrg, strip (low trg), strip cTrg, strip cGrp] = _
    rw [k1, k2, k3, k4, k5, k6]; rfl
  | limit b1 n b2 =>
    show [strip oLen, strip (low n), strip cLen] = _
    rw [k7, k8]; rfl
  | forb b1 f b2 =>
    show [strip oForb, strip (low f), strip cForb] = _
    rw [k9, k10]; rfl

theorem low_text (low : W → W) (t : W) : ((textElem t).map fun x => if x.1 then strip x.2 else strip (low x.2)) = lowText low t := by
  unfold textElem lowText
  split <;> rfl

/-- Lower-casing a line changes its texts and phrases only: the annotations are kept. -/
theorem C262_lowercase (low : W → W) (t : W) (l : List (Ann × W)) (h : LineOk t l) :
    lowercase low (lineOf t l) = joinWords (lowText low t ++ l.flatMap fun x => lowElems low x.1 ++ lowText low x.2) := by
  unfold lowercase
  rw [(C260_skeleton _).2 t l rfl h, List.map_append, low_text, List.map_flatMap]
  congr 3
  funext x
  rw [List.map_append, low_ann, low_text]

example : lowercase (fun s => s.map Char.toLower) (lineOf "MI ".toList exLine) =
    ("mi <phr_pair_annot> <src_segm> la casa </src_segm> <trg_segm> the <unk> </trg_segm> </phr_pair_annot> es " ++
      "<length_limit> 12 </length_limit> <forbidden_words> a b </forbidden_words> < x").toList := by
  rw [C262_lowercase _ _ _ ⟨⟨not_hasInfix _ _ (by decide +kernel), not_hasInfix _ _ (by decide +kernel), not_hasInfix _ _ (by decide +kernel)⟩, exLine_ok.2⟩]
  decide +kernel

/-! ### categorize -/

theorem catGo_append (cz : W → W) (l l' : List (Bool × W)) : ∀ st, catGo cz st (l ++ l') = (catGo cz st l).bind fun s => catGo cz s l' := by
  induction l with
  | nil => intro st; rfl
  | cons x l ih =>
    intro st
    rw [List.cons_append, catGo, catGo]
    split
    · split
      · exact ih _
      · rfl
    · exact ih _

theorem fields_digits (n : W) (h1 : n ≠ []) (h2 : ∀ c ∈ n, Vocab.isDig c = true) : fields ' ' n = [n] := by
  have := SentHandler.fields_join (ws := [n]) (by
    intro w hw
    rw [List.mem_singleton.1 hw]
    have hne : ∀ c ∈ n, ∀ d, Vocab.isDig d = false → c ≠ d := by
      rintro c hc d hd rfl
      rw [h2 c hc] at hd
      cases hd
    exact ⟨h1, fun c hc => ⟨hne c hc _ (by decide), hne c hc _ (by decide), hne c hc _ (by decide)⟩⟩)
  simpa [joinWords] using this

theorem cat_text (cz : W → W) (t : W) (out : List W) (s1 s2 s3 : Option W) :
    catGo cz ⟨out, .none, s1, s2, s3⟩ (textElem t) = some ⟨out ++ (fields ' ' t).map cz, .none, s1, s2, s3⟩ := by
  unfold textElem
  split
  · next h => rw [h, Awk.fields_nil, catGo]; simp
  · rw [catGo, if_neg (by simp), catGo]; rfl

theorem cat_ann (cz : W → W) (a : Ann) (h : a.Ok) (out : List W) (s1 s2 s3 : Option W) :
    ∃ t1 t2 t3, catGo cz ⟨out, .none, s1, s2, s3⟩ a.elems = some ⟨out ++ catWords cz a, .none, t1, t2, t3⟩ := by
  cases a with
  | pair b1 src b2 trg b3 =>
    refine ⟨some src, some trg, s3, ?_⟩
    have e : catGo cz ⟨out, .none, s1, s2, s3⟩ (Ann.pair b1 src b2 trg b3).elems =
        some ⟨out ++ ["<phr_pair_annot>".toList] ++ pairWords cz src trg ++ ["</phr_pair_annot>".toList], .none, some src, some trg, s3⟩ := rfl
    rw [e]
    congr 2
    unfold pairWords catWords
    simp only [List.append_assoc, List.cons_append, List.nil_append]
    rfl
  | limit b1 n b2 =>
    refine ⟨s1, s2, s3, ?_⟩
    have e : catGo cz ⟨out, .none, s1, s2, s3⟩ (Ann.limit b1 n b2).elems =
        some ⟨out ++ ["<length_limit>".toList] ++ ((fields ' ' n).map fun _ => n) ++ ["</length_limit>".toList], .none, s1, s2, s3⟩ := rfl
    rw [e, fields_digits n h.1 h.2]
    simp only [List.append_assoc]
    rfl
  | forb b1 f b2 =>
    refine ⟨s1, s2, some f, ?_⟩
    have e : catGo cz ⟨out, .none, s1, s2, s3⟩ (Ann.forb b1 f b2).elems =
        some ⟨out ++ ["<forbidden_words>".toList] ++ (fields ' ' f ++ ["</forbidden_words>".toList]), .none, s1, s2, some f⟩ := rfl
    rw [e]
    simp only [List.append_assoc]
    rfl

theorem cat_all (cz : W → W) (l : List (Ann × W)) (h : ∀ x ∈ l, x.1.Ok) : ∀ (out : List W) (s1 s2 s3 : Option W),
    ∃ t1 t2 t3, catGo cz ⟨out, .none, s1, s2, s3⟩ (l.flatMap fun x => x.1.elems ++ textElem x.2) =
      some ⟨out ++ l.flatMap fun x => catWords cz x.1 ++ (fields ' ' x.2).map cz, .none, t1, t2, t3⟩ := by
  induction l with
  | nil => intro out s1 s2 s3; exact ⟨s1, s2, s3, by rw [List.flatMap_nil, List.flatMap_nil, List.append_nil]; rfl⟩
  | cons x l ih =>
    intro out s1 s2 s3
    obtain ⟨t1, t2, t3, e⟩ := cat_ann cz x.1 (h x List.mem_cons_self) out s1 s2 s3
    obtain ⟨u1, u2, u3, e'⟩ := ih (fun y hy => h y (List.mem_cons_of_mem _ hy)) (out ++ catWords cz x.1 ++ (fields ' ' x.2).map cz) t1 t2 t3
    refine ⟨u1, u2, u3, ?_⟩
    rw [List.flatMap_cons, List.flatMap_cons, catGo_append, catGo_append, e, Option.bind_some, cat_text, Option.bind_some, e']
    simp only [List.append_assoc]

/-- Categorizing a line: the words of its texts are categorized, annotated phrases as `C259_annotation_paired` says, and the tags, the limits of
length and the forbidden words are kept. -/
theorem C263_categorize (cz : W → W) (t : W) (l : List (Ann × W)) (h : LineOk t l) :
    categorize cz (lineOf t l) =
      some (joinWords ((fields ' ' t).map cz ++ l.flatMap fun x => catWords cz x.1 ++ (fields ' ' x.2).map cz)) := by
  unfold categorize
  obtain ⟨t1, t2, t3, e⟩ := cat_all cz l (fun x hx => (h.2 x hx).1) ((fields ' ' t).map cz) none none none
  rw [(C260_skeleton _).2 t l rfl h, catGo_append, cat_text, Option.bind_some, List.nil_append, e]
  rfl

example : categorize (fun w => if w = "mi".toList ∨ w = "a".toList then "<number>".toList else w) (lineOf "mi ".toList exLine) =
    some ("<number> <phr_pair_annot> <src_segm> la casa </src_segm> <trg_segm> the <unk> </trg_segm> </phr_pair_annot> es " ++
      "<length_limit> 12 </length_limit> <forbidden_words> a b </forbidden_words> < x").toList := by
  rw [C263_categorize _ _ _ exLine_ok]; decide +kernel

/-! ### Tokenizer -/

theorem find_spec (m : W) : ∀ s : W, (∃ a b, s = a ++ (m ++ b)) → ∃ g r, findSplit m s = some (g, r) ∧ s = g ++ (m ++ r) ∧
    ∀ a b, s = a ++ (m ++ b) → b <:+ r := by
  intro s
  induction s with
  | nil =>
    rintro ⟨a, b, e⟩
    have e' := e.symm
    rw [List.append_eq_nil_iff, List.append_eq_nil_iff] at e'
    obtain ⟨rfl, rfl, rfl⟩ := e'
    refine ⟨[], [], by rw [findSplit, if_pos rfl], rfl, ?_⟩
    intro a b e
    have e' := e.symm
    rw [List.append_eq_nil_iff, List.append_eq_nil_iff] at e'
    rw [e'.2.2]; exact List.suffix_refl _
  | cons c cs ih =>
    rintro ⟨a, b, e⟩
    rw [findSplit]
    by_cases hp : m.isPrefixOf (c :: cs) = true
    · rw [if_pos hp]
      obtain ⟨r, hr⟩ := List.isPrefixOf_iff_prefix.1 hp
      refine ⟨[], r, ?_, by rw [← hr]; rfl, ?_⟩
      · rw [← hr, List.drop_left]
      · intro a b e
        rw [← hr] at e
        have h1 : r <:+ m ++ r := List.suffix_append _ _
        have h2 : b <:+ m ++ r := by rw [e]; exact (List.suffix_append _ _).trans (List.suffix_append _ _)
        have hl := congrArg List.length e
        simp only [List.length_append] at hl
        exact List.suffix_of_suffix_length_le h2 h1 (by omega)
    · rw [if_neg hp]
      have hstep : ∀ a b, c :: cs = a ++ (m ++ b) → ∃ a', a = c :: a' ∧ cs = a' ++ (m ++ b) := by
        intro a b e
        cases a with
        | nil =>
          exfalso
          apply hp
          rw [List.isPrefixOf_iff_prefix, e]
          exact ⟨b, rfl⟩
        | cons d a =>
          rw [List.cons_append] at e
          obtain ⟨rfl, e2⟩ := List.cons.inj e
          exact ⟨a, rfl, e2⟩
      obtain ⟨a', rfl, e'⟩ := hstep a b e
      obtain ⟨g, r, h1, h2, h3⟩ := ih ⟨a', b, e'⟩
      refine ⟨c :: g, r, by rw [h1]; rfl, by rw [List.cons_append, ← h2], ?_⟩
      intro a b e
      obtain ⟨a', rfl, e'⟩ := hstep a b e
      exact h3 a' b e'

theorem found_longer : ∀ (ms : List W) (s s' : W), s <:+ s' → Found ms s → Found ms s' := by
  intro ms
  cases ms with
  | nil => intro _ _ _ _; trivial
  | cons m ms =>
    rintro s s' ⟨p, rfl⟩ ⟨g, r, rfl, h⟩
    exact ⟨p ++ g, r, by rw [List.append_assoc], h⟩

theorem tokGo_spec : ∀ (ms : List W) (s : W), Found ms s → ∃ ts, tokGo ms s = some ts ∧ ts.flatten = s := by
  intro ms
  induction ms with
  | nil =>
    intro s _
    refine ⟨_, rfl, ?_⟩
    split
    · next h => rw [h]; rfl
    · simp
  | cons m ms ih =>
    rintro s ⟨g, r, e, h⟩
    obtain ⟨g', r', h1, h2, h3⟩ := find_spec m s ⟨g, r, e⟩
    obtain ⟨ts, h4, h5⟩ := ih r' (found_longer ms r r' (h3 g r e) h)
    refine ⟨(if g' = [] then [] else [g']) ++ m :: ts, by rw [tokGo, h1]; simp only; rw [h4]; rfl, ?_⟩
    rw [List.flatten_append, List.flatten_cons, h5, h2]
    congr 1
    split
    · next h => rw [h]; rfl
    · simp

theorem tokGo_exact : ∀ (ms : List W), tokGo ms ms.flatten = some ms := by
  intro ms
  induction ms with
  | nil => rfl
  | cons m ms ih =>
    have : findSplit m (m ++ ms.flatten) = some ([], ms.flatten) := by
      cases h : m ++ ms.flatten with
      | nil =>
        rw [List.append_eq_nil_iff] at h
        rw [findSplit, if_pos h.1, h.2]
      | cons c cs =>
        rw [findSplit, if_pos (by rw [← h, List.isPrefixOf_iff_prefix]; exact List.prefix_append _ _), ← h, List.drop_left]
    rw [List.flatten_cons, tokGo, this]
    simp only
    rw [ih]; rfl

/-- The tokenizer loses only blank tokens: the text is the concatenation of some parts, and the tokens are those that are not blank; if the
matches cover the text they are the parts. -/
theorem C264_tokenizer (fa : W → List W) (s : W) (h : Found (fa s) s) :
    ∃ parts : List W, parts.flatten = s ∧ tokenizer fa s = some (parts.filter fun p => decide (∃ c ∈ p, c ≠ ' ')) ∧
      ((fa s).flatten = s → parts = fa s) := by
  obtain ⟨ts, h1, h2⟩ := tokGo_spec (fa s) s h
  refine ⟨ts, h2, ?_, ?_⟩
  · unfold tokenizer
    rw [h1, Option.map_some]
    congr 1
    apply List.filter_congr
    intro p _
    rw [decide_eq_decide]
    have hd : ∀ u : W, u.dropWhile (fun c => c == ' ') = [] ↔ ∀ c ∈ u, c = ' ' := by
      intro u
      induction u with
      | nil => simp
      | cons c u ih =>
        by_cases h : c = ' '
        · rw [List.dropWhile_cons_of_pos (by simpa using h), ih]; simp [h]
        · rw [List.dropWhile_cons_of_neg (by simpa using h)]; simp [h]
    have : strip p = [] ↔ ∀ c ∈ p, c = ' ' := by
      unfold strip
      rw [List.reverse_eq_nil_iff, hd]
      constructor
      · intro hh c hc
        by_cases hcs : c = ' '
        · exact hcs
        · have : c ∈ p.dropWhile (fun c => c == ' ') := by
            rw [← List.takeWhile_append_dropWhile (p := fun c : Char => c == ' ') (l := p)] at hc
            rcases List.mem_append.1 hc with hc | hc
            · have := List.all_eq_true.1 (List.all_takeWhile (p := fun c : Char => c == ' ') (l := p)) c hc
              exact absurd (by simpa using this) hcs
            · exact hc
          exact hh c (List.mem_reverse.2 this)
      · intro hh c hc
        exact hh c ((List.dropWhile_suffix _).subset (List.mem_reverse.1 hc))
    constructor
    · intro hs
      apply Classical.byContradiction
      intro hn
      exact hs (this.2 fun c hc => Classical.byContradiction fun he => hn ⟨c, hc, he⟩)
    · rintro ⟨c, hc, he⟩ hs
      exact he (this.1 hs c hc)
  · intro hf
    have := tokGo_exact (fa s)
    rw [hf, h1] at this
    exact Option.some.inj this

example : tokenizer (fun _ => ["ab".toList, " ".toList, "c".toList]) "ab ..c!".toList = some ["ab".toList, "..".toList, "c".toList, "!".toList] := by
  decide +kernel

theorem nb_filter (ps : List W) : nb (ps.filter fun p => decide (∃ c ∈ p, c ≠ ' ')).flatten = nb ps.flatten := by
  induction ps with
  | nil => rfl
  | cons p ps ih =>
    rw [List.flatten_cons, nb_append]
    by_cases h : ∃ c ∈ p, c ≠ ' '
    · rw [List.filter_cons_of_pos (by simpa using h), List.flatten_cons, nb_append, ih]
    · rw [List.filter_cons_of_neg (by simpa using h), ih]
      have : nb p = [] := by
        unfold nb
        rw [List.filter_eq_nil_iff]
        intro c hc
        have := Classical.byContradiction fun he : ¬ c = ' ' => h ⟨c, hc, he⟩
        simp [this]
      rw [this, List.nil_append]

theorem tok_elems (fa : W → List W) (hfa : ∀ s, Found (fa s) s) : ∀ l : List (Bool × W),
    ∃ ts, tokElems fa l = some ts ∧ nb ts.flatten = nb (l.flatMap Prod.snd) := by
  intro l
  induction l with
  | nil => exact ⟨[], rfl, rfl⟩
  | cons x l ih =>
    obtain ⟨ts, h1, h2⟩ := ih
    rw [List.flatMap_cons, nb_append, ← h2]
    cases hx : x.1 with
    | true =>
      refine ⟨[x.2] ++ ts, by rw [tokElems, hx, h1, if_pos rfl], ?_⟩
      rw [List.flatten_append, nb_append]; simp
    | false =>
      obtain ⟨ps, e1, e2, _⟩ := C264_tokenizer fa x.2 (hfa x.2)
      refine ⟨_ ++ ts, by rw [tokElems, hx, h1, if_neg (by simp), e2], ?_⟩
      rw [List.flatten_append, nb_append, nb_filter, e1]

theorem tok_tag (fa : W → List W) (w : W) (l : List (Bool × W)) : tokElems fa ((true, w) :: l) = (tokElems fa l).map (w :: ·) := by
  rw [tokElems, if_pos rfl]
  cases tokElems fa l <;> rfl

theorem tok_txt (fa : W → List W) (w : W) (l : List (Bool × W)) (ts : List W) (h : tokenizer fa w = some ts) :
    tokElems fa ((false, w) :: l) = (tokElems fa l).map (ts ++ ·) := by
  rw [tokElems, if_neg (by simp), h]
  cases tokElems fa l <;> rfl

/-- Tokenizing a line, annotated or not: the tokens have the characters of the line, except blanks, in the same order; the tags of an annotation
are tokens and its phrases are tokenized one by one. -/
theorem C265_tokenize (fa : W → List W) (hfa : ∀ s, Found (fa s) s) (s : W) :
    (∃ ts, tokenize fa s = some ts ∧ nb ts.flatten = nb s) ∧
    ∀ (b1 b2 b3 : Nat) (src trg t u : W), s = lineOf t [(.pair b1 src b2 trg b3, u)] → LineOk t [(.pair b1 src b2 trg b3, u)] → t ≠ [] → u ≠ [] →
      ∃ t' src' trg' u', tokenizer fa t = some t' ∧ tokenizer fa src = some src' ∧ tokenizer fa trg = some trg' ∧ tokenizer fa u = some u' ∧
        tokenize fa s = some (t' ++ ["<phr_pair_annot>".toList, "<src_segm>".toList] ++ src' ++ ["</src_segm>".toList, "<trg_segm>".toList] ++ trg' ++
          ["</trg_segm>".toList, "</phr_pair_annot>".toList] ++ u') := by
  constructor
  · obtain ⟨ts, h1, h2⟩ := tok_elems fa hfa (skeleton s)
    exact ⟨ts, h1, by rw [h2]; exact (C260_skeleton s).1⟩
  · intro b1 b2 b3 src trg t u e h ht hu
    obtain ⟨_, _, t1, _⟩ := C264_tokenizer fa t (hfa t)
    obtain ⟨_, _, t2, _⟩ := C264_tokenizer fa src (hfa src)
    obtain ⟨_, _, t3, _⟩ := C264_tokenizer fa trg (hfa trg)
    obtain ⟨_, _, t4, _⟩ := C264_tokenizer fa u (hfa u)
    refine ⟨_, _, _, _, t1, t2, t3, t4, ?_⟩
    unfold tokenize
    rw [(C260_skeleton s).2 t _ e h]
    have e1 : textElem t = [(false, t)] := if_neg ht
    have e2 : textElem u = [(false, u)] := if_neg hu
    rw [List.flatMap_cons, List.flatMap_nil, e1, e2]
    show tokElems fa [(false, t), (true, oGrp), (true, oSrc), (false, src), (true, cSrc), (true, oTrg), (false, trg), (true, cTrg), (true, cGrp),
      (false, u)] = _
    rw [tok_txt fa _ _ _ t1, tok_tag, tok_tag, tok_txt fa _ _ _ t2, tok_tag, tok_tag, tok_txt fa _ _ _ t3, tok_tag, tok_tag, tok_txt fa _ _ _ t4, tokElems]
    simp only [Option.map_some, List.append_assoc, List.append_nil]
    rfl

/-- Matches as `findall` could give them: here each character that is not a blank. -/
example : (∀ s : W, Found ((s.filter fun c => c != ' ').map fun c => [c]) s) ∧
    tokenize (fun s => (s.filter fun c => c != ' ').map fun c => [c]) (lineOf "mi ".toList exLine) =
    some (["m".toList, "i".toList, "<phr_pair_annot>".toList, "<src_segm>".toList, "l".toList, "a".toList, "c".toList, "a".toList, "s".toList,
      "a".toList, "</src_segm>".toList, "<trg_segm>".toList, "t".toList, "h".toList, "e".toList, "<".toList, "u".toList, "n".toList, "k".toList,
      ">".toList, "</trg_segm>".toList, "</phr_pair_annot>".toList, "e".toList, "s".toList, "<length_limit>".toList, "1".toList, "2".toList,
      "</length_limit>".toList, "<forbidden_words>".toList, "a".toList, "b".toList, "</forbidden_words>".toList, "<".toList, "x".toList]) := by
  refine ⟨?_, by decide +kernel⟩
  intro s
  induction s with
  | nil => trivial
  | cons c s ih =>
    by_cases h : c = ' '
    · rw [List.filter_cons_of_neg (by simpa using h)]
      exact found_longer _ s _ (List.suffix_cons _ _) ih
    · rw [List.filter_cons_of_pos (by simpa using h), List.map_cons]
      exact ⟨[], s, rfl, ih⟩

end Thot.Preproc
