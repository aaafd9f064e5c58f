import Verif.Common.AMap
/-!
Model of the pre/post-processors (src/smt_preproc): the capitalisation of XRCE_PrePosProcessor2.cc, and the way
XRCE_PrePosProcessor1.cc, XRCE_PrePosProcessor4.cc, EU_PrePosProcessor1.cc and EU_PrePosProcessor2.cc restore the
tables of the categorisation library before post-processing.

Simplifications: a sentence is the list of its words (StrProcUtils.cc:48-86); the language model is a parameter: an
initial state and a function giving the log-probability of a word and the next state; log-probabilities are integers
and larger than `-FLT_MAX`.  The tokenisation and categorisation library (`XRCEtokLine`, `XRCEpprocLine`,
`EUpprocLine`, …), which is not part of the sources, is a parameter.  Reading a vector past its end is `none`.
-/
namespace Thot.Capit

open Thot Thot.AMap

/-- The language model of the capitaliser. -/
structure LM (St : Type) where
  init : St
  step : St → String → Int × St

variable {St : Type}

/-- `END_OF_PREF_MARK` (SmtPreprocDefs.h). -/
def mark : String := "<END_OF_PREF_MARK>"

/-- XRCE_PrePosProcessor2.cc:211-230: the loop of `loadCapitOptions` over the lines of the file (their fields);
`map::insert` keeps a value that is there. -/
def loadOptions : List (List String) → List (String × List String) → List (String × List String)
  | [], m => m
  | l :: r, m =>
    match l with
    | w :: _ :: o :: os =>
      match lk m w with
      | none => loadOptions r (put m w (o :: os))
      | some _ => loadOptions r m
    | _ => loadOptions r m

/-- XRCE_PrePosProcessor2.cc:136-156 and 172-183: the loop over the capitalisation options that satisfy `ok`, with
the best log-probability so far (`none` for `-FLT_MAX`) and the best word. -/
def bestLoop (lm : LM St) (st : St) (ok : String → Bool) : List String → Option Int × String → Option Int × String
  | [], acc => acc
  | o :: r, acc =>
    if ok o then
      let lgp := (lm.step st o).1
      match acc.1 with
      | none => bestLoop lm st ok r (some lgp, o)
      | some b => if b < lgp then bestLoop lm st ok r (some lgp, o) else bestLoop lm st ok r acc
    else bestLoop lm st ok r acc

/-- XRCE_PrePosProcessor2.cc:130-156 and 165-184: the word chosen for `w`. -/
def choose (lm : LM St) (caps : List (String × List String)) (st : St) (ok : String → Bool) (w : String) : String :=
  match lk caps w with
  | none => w
  | some opts => (bestLoop lm st ok opts (none, w)).2

/-- XRCE_PrePosProcessor2.cc:118-126: the words of the prefix before the last one: the state of the language model
and the words output. -/
def prefixLoop (lm : LM St) : List String → St → List String → St × List String
  | [], st, res => (st, res)
  | w :: r, st, res => prefixLoop lm r (lm.step st w).2 (res ++ [w])

/-- XRCE_PrePosProcessor2.cc:163-188: the words after the last prefix word. -/
def restLoop (lm : LM St) (caps : List (String × List String)) : List String → St → List String → List String
  | [], _, res => res
  | w :: r, st, res =>
    let b := choose lm caps st (fun _ => true) w
    restLoop lm caps r (if w = mark then st else (lm.step st b).2) (res ++ [b])

/-- XRCE_PrePosProcessor2.cc:145: `strncmp(strVec[i],cap_opt,strVec[i].size())==0` (no null characters). -/
def compatible (w opt : String) : Bool := w.toList.isPrefixOf opt.toList

/-- XRCE_PrePosProcessor2.cc:106-190 `capitalize`, on the words of the sentence and of `lastPreprocStr`. -/
def capitalize (lm : LM St) (caps : List (String × List String)) (last str : List String) : Option (List String) :=
  let p := if last.length > 1 then prefixLoop lm last.dropLast lm.init [] else (lm.init, [])
  let i := last.length - 1
  if last.length ≥ 1 then
    match str[i]? with
    | none => none
    | some w =>
      let b := choose lm caps p.1 (compatible w) w
      some (restLoop lm caps (str.drop (i + 1)) (lm.step p.1 b).2 (p.2 ++ [b]))
  else some (restLoop lm caps str p.1 p.2)

/-- The members of XRCE_PrePosProcessor2 (XRCE_PrePosProcessor2.h:82-91). -/
structure Proc2 where
  last : List String
  caps : List (String × List String)

/-- XRCE_PrePosProcessor2.cc:62-74 `preprocLine`: its effect on the object; `tok` is `XRCEtokLine`. -/
def Proc2.preproc (tok : String → List String) (p : Proc2) (str : String) (keep : Bool) : Proc2 :=
  if keep then { p with last := [] } else { p with last := tok str }

/-- XRCE_PrePosProcessor2.cc:77-90 `postprocLine` before the final `XRCEpostprocLine`. -/
def Proc2.postproc (lm : LM St) (p : Proc2) (str : List String) (caseconv : Bool) : Option (List String) :=
  if caseconv then capitalize lm p.caps p.last str else some str

/-- XRCE_PrePosProcessor2.cc:93-103 `isCategory`. -/
def isCategory2 (w : String) : Bool :=
  match w.toList.getLast? with
  | none => false
  | some c => c == '>'

/-! ### Restoring the tables of the library -/

/-- The categorisation library: its tables, which are global. -/
structure Lib (Tb : Type) where
  /-- the tables after `XRCEpprocLine(str,caseconv,true)` -/
  keep : String → Bool → Tb
  /-- the result of `XRCEpprocLine(str,caseconv,_)` -/
  pproc : String → Bool → String
  /-- the result of `XRCEpostprocLine(str,caseconv)` -/
  post : Tb → String → Bool → String

/-- XRCE_PrePosProcessor1.cc:63-75 `preprocLine` (EU_PrePosProcessor1.cc:62-73, EU_PrePosProcessor2.cc:62-78,
XRCE_PrePosProcessor4.cc:46-57): `lastPreprocStrKept` and the tables after the call, and the result. -/
def preprocLine {Tb : Type} (lib : Lib Tb) (kept : String) (tb : Tb) (str : String) (caseconv keep : Bool) :
    String × Tb × String :=
  (if keep then str else kept, if keep then lib.keep str caseconv else tb, lib.pproc str caseconv)

/-- XRCE_PrePosProcessor1.cc:78-86 `postprocLine` (EU_PrePosProcessor1.cc:76-84, EU_PrePosProcessor2.cc:81-96,
XRCE_PrePosProcessor4.cc:60-72): the tables after the call and the result. -/
def postprocLine {Tb : Type} (lib : Lib Tb) (kept : String) (tb : Tb) (str : String) (caseconv : Bool) : Tb × String :=
  let tb' := if kept ≠ "" then lib.keep kept caseconv else tb
  (tb', lib.post tb' str caseconv)

/-- A call on one of several processor objects, which share the library. -/
inductive Call where
  | pre (p : Nat) (str : String) (caseconv keep : Bool)
  | post (p : Nat) (str : String) (caseconv : Bool)

/-- The strings kept by the objects, and the tables. -/
structure World (Tb : Type) where
  kept : Nat → String
  tb : Tb

/-- A call: the new world and the result. -/
def call {Tb : Type} (lib : Lib Tb) (w : World Tb) : Call → World Tb × String
  | .pre p str cc keep =>
    let r := preprocLine lib (w.kept p) w.tb str cc keep
    (⟨fun q => if q = p then r.1 else w.kept q, r.2.1⟩, r.2.2)
  | .post p str cc =>
    let r := postprocLine lib (w.kept p) w.tb str cc
    (⟨w.kept, r.1⟩, r.2)

end Thot.Capit
