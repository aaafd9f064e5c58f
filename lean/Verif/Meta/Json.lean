import Verif.Meta.Model
/-!
Model of `/repo/src/stack_dec/JsonTranslationMetadata.h`: translation constraints given as a JSON object. The JSON text is
parsed by the picojson library (not modelled): the parsed value is an argument. `getTransForSrcPhr`,
`getConstrainedSrcPhrases`, `srcPhrAffectedByConstraint`, `translationSatisfiesConstraints` are the same code as in
TranslationMetadata.h, modelled in `Verif.Meta.Model`.
-/
namespace Thot.Meta
open Thot.StrProc (Str stringToStringVector)

/-- A parsed JSON value (numbers and booleans are of no interest here). -/
inductive Json where
  | null
  | other
  | str (s : Str)
  | arr (l : List Json)
  | obj (m : List (Str × Json))

/-- picojson.h:447-452 `value::get(key)`: throws if the value is not an object, null if there is no such key. -/
def Json.get (j : Json) (key : Str) : Option Json :=
  match j with
  | .obj m => some ((AMap.lk m key).getD .null)
  | _ => none

/-- Outcome of a function that may throw or read out of bounds. -/
inductive Out (α : Type) where
  | ok (a : α)
  | exc
  | oob
  deriving DecidableEq

/-- JsonTranslationMetadata.h:285-291 `containsOnlyWhitespaces`. -/
def containsOnlyWhitespaces (p : Str) : Bool := p.all (fun c => !(c != ' ' && c != '\t'))

/-- The comparison loop of `isPhraseInSentence`; `none`: read past the end of the sentence. -/
def matchAt (w : List Str) : Nat → List Str → Option Bool
  | _, [] => some true
  | s, x :: xs =>
    match w[s]? with
    | none => none
    | some y => if y ≠ x then some false else matchAt w (s + 1) xs

/-- JsonTranslationMetadata.h:296-309 `isPhraseInSentence`. -/
def isPhraseInSentence (w phrase : List Str) (start : Nat) : Option Bool :=
  if phrase.length = 0 then some true
  else if start + phrase.length - 1 > w.length then some false
  else matchAt w start phrase

/-- The loop of `addTranslations` from source token `s` on, for the pairs still to be found.
JsonTranslationMetadata.h:320-341. -/
def addLoop (w : List Str) (s : Nat) (tps : List (List Str × List Str)) (m : List (Segm × List Str)) :
    Out (List (Segm × List Str)) :=
  match tps with
  | [] => .ok m
  | tp :: rest =>
    if s < w.length then
      match isPhraseInSentence w tp.1 s with
      | none => .oob
      | some true => addLoop w (s + tp.1.length) rest (AMap.put m (s + 1, s + tp.1.length) tp.2)
      | some false => addLoop w (s + 1) (tp :: rest) m
    else .ok m
termination_by (w.length - s) + tps.length
decreasing_by
  · simp only [List.length_cons]; omega
  · simp only [List.length_cons]; omega

/-- JsonTranslationMetadata.h:312-343 `addTranslations`. -/
def addTranslations (w : List Str) (tps : List (Str × Str)) : Out (List (Segm × List Str)) :=
  addLoop w 0 (tps.map fun p => (stringToStringVector p.1, stringToStringVector p.2)) []

def kTranslation : Str := "translation".toList
def kOriginal : Str := "original".toList
def kSrcTitle : Str := "src_title".toList
def kPreprocessed : Str := "preprocessed".toList
def kSegm : Str := "tex_segmentation".toList

/-- The pair of a tag, if both fields are strings with something else than blanks. JsonTranslationMetadata.h:166-188.
`none`: exception (the tag is not an object). -/
def tagPair (j : Json) : Option (Option (Str × Str)) :=
  match j.get kTranslation, j.get kOriginal with
  | some (.str t), some (.str o) =>
    some (if !containsOnlyWhitespaces o && !containsOnlyWhitespaces t then some (o, t) else none)
  | some _, some _ => some none
  | _, _ => none

/-- The loop over the tags. JsonTranslationMetadata.h:162-194. -/
def tagPairs : List Json → Option (List (Str × Str))
  | [] => some []
  | j :: js =>
    match tagPair j with
    | none => none
    | some p =>
      match tagPairs js with
      | none => none
      | some ps => some (p.toList ++ ps)

/-- The source sentence of a JSON object. JsonTranslationMetadata.h:146-155. -/
def jsonSentence (m : List (Str × Json)) : List Str :=
  match (Json.obj m).get kSrcTitle with
  | some (.obj t) =>
    match (Json.obj t).get kPreprocessed with
    | some (.str s) => stringToStringVector s
    | _ => []
  | _ => []

/-- The constraints of a JSON object. JsonTranslationMetadata.h:158-197. -/
def jsonConstraints (m : List (Str × Json)) (w : List Str) : Out (List (Segm × List Str)) :=
  match (Json.obj m).get kSegm with
  | some (.arr tags) =>
    match tagPairs tags with
    | none => .exc
    | some [] => .ok []
    | some ps => addTranslations w ps
  | _ => .ok []

/-- JsonTranslationMetadata.h:116-218 `obtainTransConstraints(rawSrcSent)`, where `parsed` is the result of
`picojson::parse` (`none`: error). -/
def obtainTransConstraintsJson (raw : Str) (parsed : Option Json) : Out MD :=
  if raw.length = 0 then .ok MD.empty
  else
    match parsed with
    | none => .ok ⟨stringToStringVector raw, []⟩
    | some (.obj m) =>
      match jsonConstraints m (jsonSentence m) with
      | .ok c => .ok ⟨jsonSentence m, c⟩
      | .exc => .exc
      | .oob => .oob
    | some _ => .ok ⟨stringToStringVector raw, []⟩

end Thot.Meta
