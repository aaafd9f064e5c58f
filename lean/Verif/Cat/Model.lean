import Verif.StrProc.Props

/-!
# Model of the interactive translation of `ThotDecoder`

* `src/stack_dec/ThotDecoder.cc`: `startCat`, `addStrToPref`, `addStrToPrefAux`, `setPref`, `resetPrefix`,
  `resetPrefixAux`, `robustObtainFinalOutput`, `postprocWithCriticalError`, `robustMergeTransWithUserPref`,
  `robustMergePostProcTransWithUserPref`, `expandLastWord`, `getWordCompletion`.
* `src/stack_dec/WgUncoupledAssistedTrans.h`: `translateWithPrefix`, `addStrToPrefix`, `resetPrefix`.

The state is that of one user (requests of one user are serialised, C64).  Simplifications: a string is a
list of characters without the character 0; the search that produces the word graph of a sentence and the
word-graph processor (`WgProcessorForAnlp::correct`, modelled in `Verif.WgProc`) are parameters, as are
the pre/post-processor and the word predictor; models do not change during the session (no training
requests); verbose output and the switches of best-score pruning are dropped.  `none` stands for a read
outside a string.
-/

namespace Thot.Cat

open Thot.StrProc

/-- What the session uses of the other classes. `Wg` is a word graph, `Rej` a set of rejected words and
`PS` the internal state of the pre/post-processor. -/
structure Sys (Wg Rej PS : Type) where
  /-- `obtainWgUsingWgHandler`, `obtainWgUsingTranslator` and pruning, `WgUncoupledAssistedTrans.h:167-184`:
  the word graph of a sentence, and whether a complete hypothesis was found. -/
  wgFor : Str → Wg × Bool
  /-- `WgProcessorForAnlp::correct`, the corrections from best to worst; there is no graph before the first
  sentence. -/
  correct : Option Wg → Str → Rej → List (List Str)
  /-- The empty set of rejected words. -/
  noRej : Rej
  /-- `getBestSuffixGivenHist(hist,word).second`. -/
  suffix : List Str → Str → Str
  /-- `tdState.preprocId`. -/
  preproc : Bool
  /-- `preprocLine(str,caseconv,keepPreprocInfo)`: result and new internal state. -/
  pre : PS → Str → Bool → Str × PS
  /-- `postprocLine(str,caseconv)`. -/
  post : PS → Str → Str
  /-- `isCategory(word)`. -/
  isCategory : Str → Bool

/-- `END_OF_PREF_MARK`, `SmtPreprocDefs.h:51`. -/
def endOfPrefMark : Str := ['<', 'E', 'N', 'D', '_', 'O', 'F', '_', 'P', 'R', 'E', 'F', '_', 'M', 'A', 'R', 'K', '>']

/-- `s[i]` of a `std::string`: reading the position after the last character gives the character 0, reading
further is undefined. -/
def charAt (s : Str) (i : Nat) : Option Char :=
  if i < s.length then s[i]? else if i = s.length then some (Char.ofNat 0) else none

/-! ## `WgUncoupledAssistedTrans` -/

/-- The members `catPrefix` and (inside the word-graph processor) the linked word graph,
`WgUncoupledAssistedTrans.h:129-131`, together with the total prefix of the user and the internal state of
the pre/post-processor, `ThotDecoder.h:313-330`. -/
structure St (Wg PS : Type) where
  linked : Option Wg
  catPrefix : Str
  total : Str
  ps : PS

/-- The best correction, words joined by blanks, `WgUncoupledAssistedTrans.h:217-226`. -/
def bestText : List (List Str) → Str
  | [] => []
  | c :: _ => stringVectorToString c

section
variable {Wg Rej PS : Type} (S : Sys Wg Rej PS)

/-- `WgUncoupledAssistedTrans::translateWithPrefix`, `WgUncoupledAssistedTrans.h:164-236`. -/
def atTranslate (st : St Wg PS) (s pref : Str) (rej : Rej) : Str × St Wg PS :=
  (if (S.wgFor s).2 then bestText (S.correct (some (S.wgFor s).1) pref rej) else [],
    { st with linked := some (S.wgFor s).1, catPrefix := pref })

/-- `WgUncoupledAssistedTrans::addStrToPrefix`, `WgUncoupledAssistedTrans.h:340-366`. -/
def atAddStr (st : St Wg PS) (s : Str) (rej : Rej) : Str × St Wg PS :=
  (bestText (S.correct st.linked (st.catPrefix ++ s) rej), { st with catPrefix := st.catPrefix ++ s })

/-- `WgUncoupledAssistedTrans::resetPrefix`, `WgUncoupledAssistedTrans.h:370-373`. -/
def atReset (st : St Wg PS) : St Wg PS := { st with catPrefix := [] }

/-! ## Completing the last word -/

/-- `while(i!=0 && partialSent[i]!=' ') --i;`, `ThotDecoder.cc:3128-3131`. -/
def backTo (s : Str) : Nat → Nat
  | 0 => 0
  | i + 1 => if s[i + 1]? = some ' ' then i + 1 else backTo s i

/-- `if(partialSent[i]==' ') ++i;`, `ThotDecoder.cc:3132`. -/
def skipBlank (s : Str) (i : Nat) : Nat := if s[i]? = some ' ' then i + 1 else i

/-- `lastWord` of an incomplete last word, `ThotDecoder.cc:3127-3136`. -/
def lastPartial (s : Str) : Str := s.drop (skipBlank s (backTo s s.length))

/-- The history given to the word predictor, `ThotDecoder.cc:3150-3154`. -/
def predHist (ws : List Str) : List Str :=
  (if ws.length ≥ 3 then (ws[ws.length - 3]?).toList else []) ++
    (if ws.length ≥ 2 then (ws[ws.length - 2]?).toList else [])

/-- `expandLastWord`, `ThotDecoder.cc:3116-3168`, with `MINIMUM_WORD_LENGTH_TO_EXPAND` = 1
(`ThotDecoder.h:73`): the returned string and the new value of `partialSent`. -/
def expandLastWord (suffix : List Str → Str → Str) (s : Str) : Str × Str :=
  if s.length > 0 then
    if s.getLast? = some ' ' then ([], s)
    else if (lastPartial s).length ≤ 1 then (lastPartial s, s)
    else
      (lastPartial s ++ suffix (predHist (stringToStringVector s)) (lastPartial s),
        if (suffix (predHist (stringToStringVector s)) (lastPartial s)).length > 0 then
          s ++ suffix (predHist (stringToStringVector s)) (lastPartial s) ++ [' ']
        else s ++ suffix (predHist (stringToStringVector s)) (lastPartial s))
  else ([], s)

/-! ## Merging the translation and the prefix -/

/-- The loop `while(totalPrefix[prefIdx]==' ')`, `ThotDecoder.cc:3069-3073`: the blanks and what follows. -/
def takeBlanks : Str → Str × Str
  | [] => ([], [])
  | c :: cs => if c = ' ' then (c :: (takeBlanks cs).1, (takeBlanks cs).2) else ([], c :: cs)

/-- The loops of `robustMergeTransWithUserPref`, `ThotDecoder.cc:3065-3089`, on the rest of the prefix and
the rest of the translation. -/
def mergeLoop : Str → Str → Str
  | pref, [] => pref
  | [], t :: ts => t :: mergeLoop [] ts
  | c :: cs, t :: ts =>
    if t ≠ ' ' then (takeBlanks (c :: cs)).1 ++ t :: mergeLoop (takeBlanks (c :: cs)).2.tail ts
    else (takeBlanks (c :: cs)).1 ++ mergeLoop (takeBlanks (c :: cs)).2 ts

/-- `robustMergeTransWithUserPref`, `ThotDecoder.cc:3044-3093`. -/
def robustMerge (trans pref : Str) : Str :=
  if !isPrefixStrVec (stringToStringVector pref) (stringToStringVector trans) then pref else mergeLoop pref trans

/-- `robustMergePostProcTransWithUserPref`, `ThotDecoder.cc:3097-3113`. -/
def overwrite : Str → Str → Str
  | res, [] => res
  | [], p :: ps => p :: overwrite [] ps
  | _ :: rs, p :: ps => p :: overwrite rs ps

/-! ## Post-processing -/

/-- The length of the prefix shared by two words, `ThotDecoder.cc:3213-3216`. -/
def shared : Str → Str → Nat
  | a :: as, b :: bs => if a ≠ b then 0 else shared as bs + 1
  | _, _ => 0

/-- `getWordCompletion`, `ThotDecoder.cc:3204-3226`. -/
def getWordCompletion (u c : Str) : Str :=
  if u.length ≥ c.length then [] else if shared u c ≥ 1 then c.drop u.length else []

/-- Position of the first occurrence of `m` in `s`, or the length of `s`; `find` and the check that
follows, `ThotDecoder.cc:3014-3018`. -/
def findOrEnd (m : Str) : Str → Nat
  | [] => 0
  | c :: cs => if m.isPrefixOf (c :: cs) then 0 else findOrEnd m cs + 1

/-- The loop `while(prefEndInTrans<trans.size() && trans[prefEndInTrans]!=' ')`, `ThotDecoder.cc:2969-2974`:
what is left of the word and whether a blank follows. -/
def restOfWord : Str → Str
  | [] => []
  | c :: cs => if c ≠ ' ' then c :: restOfWord cs else []

/-- `prefEndInTrans` and the completion of the last word, `ThotDecoder.cc:2966-2976`. -/
def prefEnd (unexp trans : Str) (lastIsCat : Bool) : Nat × Str :=
  if unexp.length > 0 ∧ trans.length > unexp.length ∧ unexp.getLast? ≠ some ' ' then
    (if unexp.length + (restOfWord (trans.drop unexp.length)).length < trans.length then
        unexp.length + (restOfWord (trans.drop unexp.length)).length + 1
      else unexp.length + (restOfWord (trans.drop unexp.length)).length,
      if lastIsCat then [] else restOfWord (trans.drop unexp.length))
  else (unexp.length, [])

/-- `lastPrefWordIsCategory`, `ThotDecoder.cc:2953-2962`. -/
def lastIsCategory (isCategory : Str → Bool) (unexp : Str) : Bool :=
  if unexp.length > 0 ∧ unexp.getLast? = some ' ' then isCategory (getLastWord unexp) else false

/-- A string passed as a `const char*`: it ends at the first character 0. -/
def cstr (s : Str) : Str := s.takeWhile (· != Char.ofNat 0)

/-- The completion of the last word when it is a category, `ThotDecoder.cc:2979-2993`. -/
def completion (post : Str → Str) (lastIsCat : Bool) (unpre pref comp : Str) : Str :=
  if lastIsCat then
    if unpre.length > 0 ∧ unpre.getLast? = some ' ' then []
    else getWordCompletion (getLastWord unpre) (getLastWord (post (cstr pref)))
  else comp

/-- The loop `for(i=0;i<prefEndInTrans;++i) startStr.push_back(trans[i])`, `ThotDecoder.cc:2996-2997`. -/
def readUpTo (s : Str) : Nat → Option Str
  | 0 => some []
  | i + 1 => (readUpTo s i).bind fun r => (charAt s i).map fun c => r ++ [c]

/-- The translation with the marker, `ThotDecoder.cc:3001-3004`. -/
def markTrans (start rest : Str) : Str :=
  if rest = [] then start ++ ' ' :: endOfPrefMark else start ++ endOfPrefMark ++ ' ' :: rest

/-- `postprocWithCriticalError`, `ThotDecoder.cc:2930-3041`. -/
def postprocWithCriticalError (isCategory : Str → Bool) (post : Str → Str) (unpre unexp pref trans : Str) :
    Option Str :=
  (readUpTo trans (prefEnd unexp trans (lastIsCategory isCategory unexp)).1).map fun start =>
    (if unpre.length > 0 ∧ unpre.getLast? = some ' ' then removeLastBlank unpre else unpre) ++
      completion post (lastIsCategory isCategory unexp) unpre pref
        (prefEnd unexp trans (lastIsCategory isCategory unexp)).2 ++
      (post (cstr (markTrans start (trans.drop (prefEnd unexp trans (lastIsCategory isCategory unexp)).1)))).drop
        (findOrEnd endOfPrefMark
          (post (cstr (markTrans start (trans.drop (prefEnd unexp trans (lastIsCategory isCategory unexp)).1)))) +
          endOfPrefMark.length)

/-- `robustObtainFinalOutput`, `ThotDecoder.cc:2902-2927`. -/
def robustObtainFinalOutput (isCategory : Str → Bool) (post : Str → Str) (unpre unexp pref trans : Str) :
    Option Str :=
  (postprocWithCriticalError isCategory post unpre unexp pref
    (if !isPrefixStrVec (stringToStringVector pref) (stringToStringVector trans) then pref else trans)).map
    fun r => overwrite r unpre

/-! ## The requests of a session -/

/-- `startCat`, `ThotDecoder.cc:2367-2440`. -/
def startCat (st : St Wg PS) (sent : Str) : Str × St Wg PS :=
  if S.preproc then
    (S.post (S.pre st.ps sent true).2
        (atTranslate S { st with total := [], ps := (S.pre st.ps sent true).2 } (S.pre st.ps sent true).1 [] S.noRej).1,
      (atTranslate S { st with total := [], ps := (S.pre st.ps sent true).2 } (S.pre st.ps sent true).1 [] S.noRej).2)
  else atTranslate S { st with total := [] } sent [] S.noRej

/-- The new total prefix, `ThotDecoder.cc:2489-2490`. -/
def newTotal (total s : Str) : Str := if total = [] then s else total ++ s

/-- `addStrToPrefAux`, `ThotDecoder.cc:2474-2553`. -/
def addStrAux (st : St Wg PS) (s : Str) (rej : Rej) : Option (Str × St Wg PS) :=
  if S.preproc then
    (robustObtainFinalOutput S.isCategory (S.post (S.pre st.ps (newTotal st.total s) false).2)
      (newTotal st.total s) (S.pre st.ps (newTotal st.total s) false).1
      (expandLastWord S.suffix (S.pre st.ps (newTotal st.total s) false).1).2
      (atAddStr S (atReset { st with total := newTotal st.total s, ps := (S.pre st.ps (newTotal st.total s) false).2 })
        (expandLastWord S.suffix (S.pre st.ps (newTotal st.total s) false).1).2 rej).1).map fun r =>
      (r, (atAddStr S
        (atReset { st with total := newTotal st.total s, ps := (S.pre st.ps (newTotal st.total s) false).2 })
        (expandLastWord S.suffix (S.pre st.ps (newTotal st.total s) false).1).2 rej).2)
  else
    some (robustMerge
      (atAddStr S (atReset { st with total := newTotal st.total s })
        (expandLastWord S.suffix (newTotal st.total s)).2 rej).1
      (expandLastWord S.suffix (newTotal st.total s)).2,
      (atAddStr S (atReset { st with total := newTotal st.total s })
        (expandLastWord S.suffix (newTotal st.total s)).2 rej).2)

/-- `resetPrefixAux`, `ThotDecoder.cc:2629-2633`. -/
def resetAux (st : St Wg PS) : St Wg PS := atReset { st with total := [] }

/-- `setPref`, `ThotDecoder.cc:2556-2594`. -/
def setPref (st : St Wg PS) (p : Str) (rej : Rej) : Option (Str × St Wg PS) :=
  if isPrefix st.total p then addStrAux S st (p.drop st.total.length) rej
  else addStrAux S (resetAux st) p rej

/-- The requests of a user in a session. -/
inductive Req (Rej : Type) where
  | startCat (sentence : Str)
  | addStrToPref (s : Str) (rejected : Rej)
  | setPref (p : Str) (rejected : Rej)
  | resetPrefix

/-- One request: the answer (if it has one) and the new state. -/
def step (st : St Wg PS) : Req Rej → Option (Option Str × St Wg PS)
  | .startCat s => some (some (startCat S st s).1, (startCat S st s).2)
  | .addStrToPref s rej => (addStrAux S st s rej).map fun r => (some r.1, r.2)
  | .setPref p rej => (setPref S st p rej).map fun r => (some r.1, r.2)
  | .resetPrefix => some (none, resetAux st)

/-- A history of requests from the state of a new user. -/
def run (ps : PS) (h : List (Req Rej)) : Option (St Wg PS) :=
  h.foldl (fun st r => st.bind fun st => (step S st r).map Prod.snd) (some ⟨none, [], [], ps⟩)

end

end Thot.Cat
