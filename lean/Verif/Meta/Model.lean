import Verif.StrProc.Model
import Verif.Common.AMap

/-!
Model of `/repo/src/stack_dec/TranslationMetadata.h`: translation constraints given as XML annotations inside the
sentence to be translated,
`<phr_pair_annot><src_segm>…</src_segm><trg_segm>…</trg_segm></phr_pair_annot>`.

A `std::string` is a list of characters; index variables into a string or a token vector are replaced by the
suffix still to be read (plus, in `tokenizeLoop`, the character just before it).  `unsigned int` positions are
natural numbers (sentences are far shorter than 2^32 words).  `none` is an out-of-bounds vector access.
The verbose printing of `obtainTransConstraints` is not modelled.
-/
namespace Thot.Meta
open Thot.StrProc (Str stringToStringVector)

/-- `XML_PHR_ANNOT_TAG_NAME`. TranslationMetadata.h:38. -/
def phrAnnotName : Str := "phr_pair_annot".toList
/-- `XML_SRC_SEGM_TAG_NAME`. TranslationMetadata.h:39. -/
def srcSegmName : Str := "src_segm".toList
/-- `XML_TRG_SEGM_TAG_NAME`. TranslationMetadata.h:40. -/
def trgSegmName : Str := "trg_segm".toList

/-- `obtainStartTag`. TranslationMetadata.h:328-334. -/
def startTag (n : Str) : Str := ['<'] ++ n ++ ['>']
/-- `obtainEndTag`. TranslationMetadata.h:338-344. -/
def endTag (n : Str) : Str := ['<', '/'] ++ n ++ ['>']

/-- `xmlTagSet` as filled by the constructor. TranslationMetadata.h:111-131. -/
def xmlTagSet : List Str :=
  [startTag phrAnnotName, endTag phrAnnotName, startTag srcSegmName, endTag srcSegmName,
   startTag trgSegmName, endTag trgSegmName]

/-- The `while(true)` loop of `xmlTag`: `aux` is `auxStr`, the argument is the part of the sentence from `i` on.
The result is the tag found and what follows it (instead of `endTagPos`). TranslationMetadata.h:355-390. -/
def xmlTagLoop (aux : Str) : Str → Option (Str × Str)
  | [] => none
  | c :: cs =>
    if c = '>' then (if aux ++ [c] ∈ xmlTagSet then some (aux ++ [c], cs) else none)
    else if c = ' ' then none
    else xmlTagLoop (aux ++ [c]) cs

/-- `xmlTag(srcSent,initialPos,endTagPos)`. TranslationMetadata.h:347-397. -/
def xmlTag : Str → Option (Str × Str)
  | [] => none
  | c :: cs => if c = '<' then xmlTagLoop ['<'] cs else none

theorem xmlTagLoop_len {aux s t r : Str} (h : xmlTagLoop aux s = some (t, r)) : r.length < s.length := by
  induction s generalizing aux with
  | nil => simp [xmlTagLoop] at h
  | cons c cs ih =>
    rw [xmlTagLoop] at h
    split at h
    · split at h
      · cases h; simp
      · cases h
    · split at h
      · cases h
      · have := ih h; simp only [List.length_cons]; omega

theorem xmlTag_len {s t r : Str} (h : xmlTag s = some (t, r)) : r.length < s.length := by
  cases s with
  | nil => simp [xmlTag] at h
  | cons c cs =>
    rw [xmlTag] at h
    split at h
    · have := xmlTagLoop_len h; simp only [List.length_cons]; omega
    · cases h

/-- The blank added before a tag: `i>0 && srcSent[i-1]!=' '`. TranslationMetadata.h:299-300. -/
def blankBefore : Option Char → Str
  | none => []
  | some p => if p ≠ ' ' then [' '] else []

/-- The blank added after a tag: `srcSent.size()>endTagPos && srcSent[endTagPos+1]!=' '`; when the tag ends the
sentence the character read is the terminating NUL. TranslationMetadata.h:307-308. -/
def blankAfter : Str → Str
  | [] => [' ']
  | c :: _ => if c ≠ ' ' then [' '] else []

/-- The scanning loop of `tokenizeSrcSentence`; `prev` is `srcSent[i-1]`. TranslationMetadata.h:291-320. -/
def tokenizeLoop (prev : Option Char) (s : Str) : Str :=
  match s with
  | [] => []
  | c :: cs =>
    match h : xmlTag (c :: cs) with
    | some (t, r) => blankBefore prev ++ t ++ blankAfter r ++ tokenizeLoop t.getLast? r
    | none => c :: tokenizeLoop (some c) cs
termination_by s.length
decreasing_by
  · exact xmlTag_len h
  · simp

/-- `tokenizeSrcSentence(srcSent)`. TranslationMetadata.h:284-324. -/
def tokenizeSrcSentence (s : Str) : Str := tokenizeLoop none s

/-- `while(i<size && tok[i]!=endTag) {aux.push_back(tok[i]); ++i;}`: the words read, and the rest starting at the
end tag. TranslationMetadata.h:427-431, 456-460. -/
def readSegm (tag : Str) : List Str → List Str × List Str
  | [] => ([], [])
  | t :: ts => if t ≠ tag then (t :: (readSegm tag ts).1, (readSegm tag ts).2) else ([], t :: ts)

/-- Reading a segment between a start and an end tag: fails when the start tag is missing, the end tag is not
found or there is no word in between; otherwise the words and the tokens after the end tag.
TranslationMetadata.h:423-447 (source), 452-476 (target). -/
def readTagged (name : Str) : List Str → Option (List Str × List Str)
  | [] => none
  | t :: ts =>
    if t = startTag name then
      match readSegm (endTag name) ts with
      | (_, []) => none
      | (ws, _ :: r) => if ws.length = 0 then none else some (ws, r)
    else none

/-- `constraintFound`: source phrase, target phrase and the tokens from `finalPos+1` on.
TranslationMetadata.h:401-490. -/
def constraintFound : List Str → Option (List Str × List Str × List Str)
  | [] => none
  | t :: ts =>
    if t = startTag phrAnnotName then
      match readTagged srcSegmName ts with
      | none => none
      | some (src, r1) =>
        match readTagged trgSegmName r1 with
        | none => none
        | some (_, []) => none
        | some (trg, e :: r2) => if e = endTag phrAnnotName then some (src, trg, r2) else none
    else none

theorem readSegm_len (tag : Str) (ts : List Str) : (readSegm tag ts).2.length ≤ ts.length := by
  induction ts with
  | nil => simp [readSegm]
  | cons t ts ih => rw [readSegm]; split <;> simp <;> omega

theorem readTagged_len {n : Str} {ts ws r : List Str} (h : readTagged n ts = some (ws, r)) :
    r.length < ts.length := by
  cases ts with
  | nil => simp [readTagged] at h
  | cons t ts =>
    rw [readTagged] at h
    split at h
    · have hl := readSegm_len (endTag n) ts
      generalize readSegm (endTag n) ts = p at h hl
      obtain ⟨a, b⟩ := p
      cases b with
      | nil => simp at h
      | cons x xs =>
        simp only [] at h
        split at h
        · cases h
        · cases h; simp at hl ⊢; omega
    · cases h

theorem constraintFound_len {ts a b r : List Str} (h : constraintFound ts = some (a, b, r)) :
    r.length < ts.length := by
  cases ts with
  | nil => simp [constraintFound] at h
  | cons t ts =>
    rw [constraintFound] at h
    split at h
    · split at h
      · cases h
      · rename_i src r1 h1
        have := readTagged_len h1
        split at h
        · cases h
        · cases h
        · rename_i trg e r2 h2
          have := readTagged_len h2
          split at h
          · cases h; simp at *; omega
          · cases h
    · cases h

/-- Source positions are pairs (first, last), counted from 1. -/
abbrev Segm := Nat × Nat

/-- The data members filled by `obtainTransConstraints`. TranslationMetadata.h:78-79. -/
structure MD where
  srcSentVec : List Str
  srcPhrTransMap : List (Segm × List Str)
deriving DecidableEq, Repr

/-- The state after `clear` / at the start of `obtainTransConstraints`. TranslationMetadata.h:137-146, 583-588. -/
def MD.empty : MD := ⟨[], []⟩

/-- Effect of a constraint found. `srcPhrTransMap` is a `std::map` with ascending iteration; the positions inserted
increase, so insertion order is iteration order. TranslationMetadata.h:166-183. -/
def MD.addConstraint (d : MD) (src trg : List Str) : MD :=
  let startSrcPos := d.srcSentVec.length + 1
  let endSrcPos := startSrcPos + src.length - 1
  ⟨d.srcSentVec ++ src, AMap.put d.srcPhrTransMap (startSrcPos, endSrcPos) trg⟩

/-- `while(!end)` of `obtainTransConstraints` on the tokens from `i` on. The first iteration is executed even when
there is no token, in which case `tokRawSrcSentVec[i]` is out of bounds. TranslationMetadata.h:161-197. -/
def scanLoop (d : MD) (ts : List Str) : Option MD :=
  match h : constraintFound ts with
  | some (src, trg, r) =>
    if r.length = 0 then some (d.addConstraint src trg) else scanLoop (d.addConstraint src trg) r
  | none =>
    match ts with
    | [] => none
    | t :: r =>
      if r.length = 0 then some { d with srcSentVec := d.srcSentVec ++ [t] }
      else scanLoop { d with srcSentVec := d.srcSentVec ++ [t] } r
termination_by ts.length
decreasing_by
  · exact constraintFound_len h
  · simp

/-- `obtainTransConstraints(rawSrcSent)`. TranslationMetadata.h:135-225. -/
def obtainTransConstraints (raw : Str) : Option MD :=
  if raw.length = 0 then some MD.empty
  else scanLoop MD.empty (stringToStringVector (tokenizeSrcSentence raw))

/-- `getSrcSentVec`. TranslationMetadata.h:228-232. -/
def getSrcSentVec (d : MD) : List Str := d.srcSentVec

/-- `getTransForSrcPhr`. TranslationMetadata.h:236-252. -/
def getTransForSrcPhr (d : MD) (p : Segm) : List Str :=
  match AMap.lk d.srcPhrTransMap p with
  | some v => v
  | none => []

/-- `getConstrainedSrcPhrases` (as the list of its elements in ascending order). TranslationMetadata.h:256-270. -/
def getConstrainedSrcPhrases (d : MD) : List Segm := d.srcPhrTransMap.map Prod.fst

/-- `srcPhrAffectedByConstraint`. TranslationMetadata.h:274-288. -/
def srcPhrAffectedByConstraint (d : MD) (p : Segm) : Bool :=
  d.srcPhrTransMap.any fun e => decide (p.1 ≤ e.1.2) && decide (p.2 ≥ e.1.1)

/-- The search loop of `transViolatesSrcPhrConstraint`: the first segment containing the first constrained word and
the target positions aligned with it; `k` is the index of the head of the list.
TranslationMetadata.h:543-558. -/
def findRelated (c : Segm) (cuts : List Nat) : Nat → List Segm → Option (Option (Segm × Nat × Nat))
  | _, [] => some none
  | k, s :: ss =>
    if c.1 ≥ s.1 ∧ c.1 ≤ s.2 then
      match (if k = 0 then some 1 else (cuts[k - 1]?).map (· + 1)), cuts[k]? with
      | some a, some b => some (some (s, a, b))
      | _, _ => none
    else findRelated c cuts (k + 1) ss

/-- The comparison loop: is some word different? TranslationMetadata.h:571-575. -/
def transDiffers (tw : List Str) (pos : Nat) : List Str → Option Bool
  | [] => some false
  | w :: ws =>
    match tw[pos - 1]? with
    | none => none
    | some x => if w ≠ x then some true else transDiffers tw (pos + 1) ws

/-- `transViolatesSrcPhrConstraint`. The size test `second-first+1` is computed modulo 2^32, so an empty target
segment (`second+1=first`) has size 0; `second+1-first` has the same value as cuts never decrease by more than
that. TranslationMetadata.h:530-581. -/
def transViolatesSrcPhrConstraint (c : Segm) (trans : List Str) (ss : List Segm) (cuts : List Nat)
    (tw : List Str) : Option Bool :=
  match findRelated c cuts 0 ss with
  | none => none
  | some none => some false
  | some (some (s, a, b)) =>
    if c = s then
      if trans.length ≠ b + 1 - a then some true else transDiffers tw a trans
    else some true

/-- `transViolatesSrcPhrConstraints`. TranslationMetadata.h:511-527. -/
def transViolatesSrcPhrConstraints (ss : List Segm) (cuts : List Nat) (tw : List Str) :
    List (Segm × List Str) → Option Bool
  | [] => some false
  | e :: r =>
    match transViolatesSrcPhrConstraint e.1 e.2 ss cuts tw with
    | none => none
    | some true => some true
    | some false => transViolatesSrcPhrConstraints ss cuts tw r

/-- `translationSatisfiesConstraints`. TranslationMetadata.h:493-501. -/
def translationSatisfiesConstraints (d : MD) (ss : List Segm) (cuts : List Nat) (tw : List Str) : Option Bool :=
  (transViolatesSrcPhrConstraints ss cuts tw d.srcPhrTransMap).map (!·)

end Thot.Meta
