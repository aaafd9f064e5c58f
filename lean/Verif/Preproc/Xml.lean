import Verif.Preproc.Categ
/-!
Model of the XML annotations of `/repo/utils/smt_preproc/thot_smt_preproc.py` (`annotated_string_to_xml_skeleton`, `remove_xml_annotations`,
`lowercase`, `categorize`, `tokenize`) and of the class `Tokenizer`.

Simplifications: a line has no white space other than the blank, `\d` is an ASCII digit. The regular expression of the tokenizer is an arbitrary
function `fa` that gives the matches (`findall`), `str.lower` an arbitrary function `low` and `categorize_word` an arbitrary function `cz`.
-/
namespace Thot.Preproc

open Thot
open Thot.SentHandler (joinWords)
open Thot.Awk (fields)

/-- The names of the tags (thot_smt_preproc.py:28-41). -/
def oGrp : W := "<phr_pair_annot>".toList
def cGrp : W := "</phr_pair_annot>".toList
def oSrc : W := "<src_segm>".toList
def cSrc : W := "</src_segm>".toList
def oTrg : W := "<trg_segm>".toList
def cTrg : W := "</trg_segm>".toList
def oLen : W := "<length_limit>".toList
def cLen : W := "</length_limit>".toList
def oForb : W := "<forbidden_words>".toList
def cForb : W := "</forbidden_words>".toList

/-- A literal of a pattern: the text after it. -/
def lit (o s : W) : Option W := if o.isPrefixOf s then some (s.drop o.length) else none

/-- `[ ]*` before a literal that does not begin with a blank. -/
def dropB (s : W) : W := s.dropWhile fun c => c == ' '

/-- `(.+?)` followed by the pattern `k`: the shortest text for which `k` matches after it. -/
def lazy1 {α : Type} (k : W → Option α) : W → Option (W × α)
  | [] => none
  | c :: cs =>
    match k cs with
    | some r => some ([c], r)
    | none => (lazy1 k cs).map fun x => (c :: x.1, x.2)

/-- `[ ]*` followed by the pattern `k`: the longest run of blanks for which `k` matches after it. -/
def starB {α : Type} (k : W → Option α) : W → Option α
  | [] => k []
  | c :: cs =>
    if c = ' ' then
      match starB k cs with
      | some r => some r
      | none => k (c :: cs)
    else k (c :: cs)

/-- The end of `dic_patt`. -/
def afterTrg (s : W) : Option W := (lit cTrg s).bind fun a => lit cGrp (dropB a)
/-- `dic_patt` after the source phrase. -/
def afterSrc (s : W) : Option (W × W) := (lit cSrc s).bind fun a => (lit oTrg (dropB a)).bind fun b => lazy1 afterTrg b

/-- The elements of an annotated phrase (thot_smt_preproc.py:1859-1863). -/
def dicElems (src trg : W) : List (Bool × W) :=
  [(true, oGrp), (true, oSrc), (false, src), (true, cSrc), (true, oTrg), (false, trg), (true, cTrg), (true, cGrp)]

/-- `dic_patt` (thot_smt_preproc.py:31-34) at the start of a text: the elements of the skeleton and the text after the match. -/
def dicAt (s : W) : Option (List (Bool × W) × W) :=
  (lit oGrp s).bind fun a => (lit oSrc (dropB a)).bind fun b => (lazy1 afterSrc b).map fun r => (dicElems r.1 r.2.1, r.2.2)

/-- The digits at the start of a text and the text after them. -/
def digitsOf (s : W) : W × W := (s.takeWhile Vocab.isDig, s.dropWhile Vocab.isDig)

/-- `len_patt` (thot_smt_preproc.py:36). -/
def lenAt (s : W) : Option (List (Bool × W) × W) :=
  (lit oLen s).bind fun a =>
    if (digitsOf (dropB a)).1 = [] then none
    else (lit cLen (dropB (digitsOf (dropB a)).2)).map fun r => ([(true, oLen), (false, (digitsOf (dropB a)).1), (true, cLen)], r)

/-- The end of `forbidw_patt`. -/
def afterForb (s : W) : Option W := lit cForb (dropB s)

/-- `forbidw_patt` (thot_smt_preproc.py:39). -/
def forbAt (s : W) : Option (List (Bool × W) × W) :=
  (lit oForb s).bind fun a => (starB (lazy1 afterForb) a).map fun r => ([(true, oForb), (false, r.1), (true, cForb)], r.2)

/-- `_annotation` (thot_smt_preproc.py:41). -/
def annAt (s : W) : Option (List (Bool × W) × W) :=
  match dicAt s with
  | some r => some r
  | none =>
    match lenAt s with
    | some r => some r
    | none => forbAt s

/-- The text before a match (thot_smt_preproc.py:1851-1852, 1872-1873). -/
def flush (acc : W) : List (Bool × W) := if acc = [] then [] else [(false, acc)]

/-- `annotated_string_to_xml_skeleton` (thot_smt_preproc.py:1843-1874): `skip` is the number of characters of the last match that are still to
be skipped and `acc` the text since the last match. -/
def skelGo : Nat → W → W → List (Bool × W)
  | _, acc, [] => flush acc
  | skip + 1, acc, _ :: cs => skelGo skip acc cs
  | 0, acc, c :: cs =>
    match annAt (c :: cs) with
    | some r => flush acc ++ (r.1 ++ skelGo (cs.length - r.2.length) [] cs)
    | none => skelGo 0 (acc ++ [c]) cs

def skeleton (s : W) : List (Bool × W) := skelGo 0 [] s

/-- `strip`. -/
def strip (s : W) : W := ((s.dropWhile fun c => c == ' ').reverse.dropWhile fun c => c == ' ').reverse

/-- The tags after which a text is kept (thot_smt_preproc.py:1878). -/
def keepTags : List W := [oSrc, cLen, cGrp, cForb]

/-- Whether the text after an element is kept (thot_smt_preproc.py:1885-1891); `none`: there is no element before. -/
def keeps : Option (Bool × W) → Bool
  | none => true
  | some p => !p.1 || decide (strip p.2 ∈ keepTags)

/-- The loop of `remove_xml_annotations`; `prev` is the element before. -/
def removeGo : Option (Bool × W) → List (Bool × W) → List W
  | _, [] => []
  | prev, x :: xs =>
    (if x.1 = false ∧ strip x.2 ≠ [] ∧ keeps prev = true then [strip x.2] else []) ++ removeGo (some x) xs

/-- `remove_xml_annotations` (thot_smt_preproc.py:1877-1892). -/
def removeXml (s : W) : W := joinWords (removeGo none (skeleton s))

/-- `lowercase` (thot_smt_preproc.py:1825-1840). -/
def lowercase (low : W → W) (s : W) : W :=
  joinWords ((skeleton s).map fun x => if x.1 then strip x.2 else strip (low x.2))

/-! #### categorize -/

/-- The tag that is open (`curr_xml_tag`). -/
inductive Tag | none | len | src | trg | forb

/-- The variables of the loop: the words, `curr_xml_tag` and the three texts (unbound at first). -/
structure CatSt where
  out : List W
  tag : Tag
  src : Option W
  trg : Option W
  forb : Option W

/-- The words for an annotated phrase (thot_smt_preproc.py:848-858). -/
def pairWords (cz : W → W) (src trg : W) : List W :=
  oSrc :: (categAnn cz (fields ' ' src) (fields ' ' trg)).1 ++ cSrc :: oTrg :: (categAnn cz (fields ' ' src) (fields ' ' trg)).2 ++ [cTrg]

/-- A tag (thot_smt_preproc.py:832-870); `none` is the exception of an unbound variable. -/
def catTag (cz : W → W) (st : CatSt) (w : W) : Option CatSt :=
  if w = oLen then some { st with out := st.out ++ [w], tag := .len }
  else if w = oGrp then some { st with out := st.out ++ [w] }
  else if w = oSrc then some { st with tag := .src }
  else if w = oTrg then some { st with tag := .trg }
  else if w = cLen then some { st with out := st.out ++ [w], tag := .none }
  else if w = cGrp then some { st with out := st.out ++ [w] }
  else if w = cSrc then some { st with tag := .none }
  else if w = cTrg then
    match st.src, st.trg with
    | some s, some t => some { st with out := st.out ++ pairWords cz s t, tag := .none }
    | _, _ => none
  else if w = oForb then some { st with out := st.out ++ [w], tag := .forb }
  else if w = cForb then
    match st.forb with
    | some f => some { st with out := st.out ++ (fields ' ' f ++ [w]), tag := .none }
    | none => none
  else some st

/-- A text (thot_smt_preproc.py:872-886). -/
def catText (cz : W → W) (st : CatSt) (w : W) : CatSt :=
  match st.tag with
  | .none => { st with out := st.out ++ (fields ' ' w).map cz }
  | .len => { st with out := st.out ++ (fields ' ' w).map fun _ => w }
  | .src => { st with src := some w }
  | .trg => { st with trg := some w }
  | .forb => { st with forb := some w }

/-- The loop of `categorize`. -/
def catGo (cz : W → W) : CatSt → List (Bool × W) → Option CatSt
  | st, [] => some st
  | st, x :: xs =>
    if x.1 = true then
      match catTag cz st x.2 with
      | some st' => catGo cz st' xs
      | none => none
    else catGo cz (catText cz st x.2) xs

/-- `categorize` (thot_smt_preproc.py:824-888). -/
def categorize (cz : W → W) (s : W) : Option W :=
  (catGo cz ⟨[], .none, none, none, none⟩ (skeleton s)).map fun st => joinWords st.out

/-! #### Tokenizer -/

/-- `find`: the text before the first occurrence of `m` and the text after it; `none` when it does not occur. -/
def findSplit (m : W) : W → Option (W × W)
  | [] => if m = [] then some ([], []) else none
  | c :: cs =>
    if m.isPrefixOf (c :: cs) then some ([], (c :: cs).drop m.length)
    else (findSplit m cs).map fun x => (c :: x.1, x.2)

/-- The loop over the matches (thot_smt_preproc.py:1781-1796) from the text that is left; `none`: a match is not found (`find` gives -1 and the
position goes wrong; not modelled). -/
def tokGo : List W → W → Option (List W)
  | [], s => some (if s = [] then [] else [s])
  | m :: ms, s =>
    match findSplit m s with
    | some r => (tokGo ms r.2).map fun ts => (if r.1 = [] then [] else [r.1]) ++ m :: ts
    | none => none

/-- `Tokenizer.tokenize` (thot_smt_preproc.py:1761-1798). -/
def tokenizer (fa : W → List W) (s : W) : Option (List W) :=
  (tokGo (fa s) s).map fun ts => ts.filter fun t => decide (strip t ≠ [])

/-- The tokens of the elements (thot_smt_preproc.py:1807-1822). -/
def tokElems (fa : W → List W) : List (Bool × W) → Option (List W)
  | [] => some []
  | x :: xs =>
    match (if x.1 = true then some [x.2] else tokenizer fa x.2), tokElems fa xs with
    | some a, some b => some (a ++ b)
    | _, _ => none

/-- `tokenize` (thot_smt_preproc.py:1801-1812). -/
def tokenize (fa : W → List W) (s : W) : Option (List W) := tokElems fa (skeleton s)

end Thot.Preproc
