import Verif.EditDist.WordModel
import Verif.WordGraph.Model

/-!
# Model of the word-graph processor of interactive translation

`WgProcessorForAnlp<PfsmEcmForWg>` (`src/error_correction/WgProcessorForAnlp.h`), `PfsmEcmForWg.cc` and the incremental
distance of `EditDistForVecString.cc:171-283`.

Simplifications: scores are exact rationals (the n-best lists of the code use `float` keys); vectors with one element per
state or per arc of the graph are functions (both ends of an arc are states of the graph, C61); the operations stored for
states are left out, since only those of arcs are read; `HIT_OP` and `SUBST_OP` are stored as the same operation, since
`obtainLastInsPrefWordVecFromEsi` treats them alike; the cache of substitution costs of `incrEditDistPrefix` is left out (it
lives during one call, for one word, so that its keys cannot collide); weights do not change between calls. Undefined
behaviour (accesses outside of a vector, an invalid arc) is `none`.
-/

namespace Thot.WgProc

open Thot.EditDist (Costs Op wordDelCost wordInsCost wordSubstCost wordPrefSubstCost interior splitLast wordEditDist)
open Thot.WordGraph (WG Arc small)

abbrev Score := Rat
abbrev Str := List Char

/-! ## Incremental edit distance -/

/-- `EcmScoreInfo`, `PfsmEcmForWgEsi.h:36-41`, of a word of an arc. -/
structure Esi where
  scr : List Score
  op : List Op
  deriving DecidableEq, Repr

/-- The identification of `HIT_OP` and `SUBST_OP`. -/
def normOp : Op → Op
  | .subst => .hit
  | o => o

/-- `incrEditDistPrefixFirstRow`, `EditDistForVecString.cc:171-185`. -/
def firstRow (k : Costs) : List Str → List Score → List Score
  | [], s => s
  | y :: ys, s => firstRow k ys (s ++ [match s.getLast? with
    | none => wordInsCost k y
    | some c => c + wordInsCost k y])

/-- The cost of a substitution, `EditDistForVecString.cc:403-410`. -/
def subCost (k : Costs) (x y : Str) (part : Bool) : Option Score :=
  if part then wordPrefSubstCost k x y else wordSubstCost k x y

/-- `processMatrixCellPref` for the second row, `EditDistForVecString.cc:395-451`, with `DONT_USE_PREF_DEL_OP`; `part` says
that the word is the last one and is not complete, `lc` is `lastWordIsComplete`. -/
def incrCell (k : Costs) (x y : Str) (part lc : Bool) (prev new : List Score) (j : Nat) : Option (Score × Op) := do
  let sc ← subCost k x y part
  let r ← interior [prev, new] 1 j sc (if x = y ∨ ((!lc && StrProc.isPrefix y x) = true) then .hit else .subst)
    (wordDelCost k x) (if wordDelCost k x = 0 then .prefDel else .del) (wordInsCost k y)
  some (r.cost, normOp r.op)

/-- The loop of `incrEditDistPrefixCached`, `EditDistForVecString.cc:265-282`, from position `j` on. -/
def incrLoop (k : Costs) (x : Str) (lc : Bool) (prev : List Score) :
    List Str → Nat → List Score → List Op → Option (List Score × List Op)
  | [], _, new, ops => some (new, ops)
  | y :: ys, j, new, ops =>
    match incrCell k x y (ys.isEmpty && !lc) lc prev new j with
    | none => none
    | some r => incrLoop k x lc prev ys (j + 1) (new.set j r.1) (ops ++ [r.2])

/-- `incrEditDistPrefixCached`, `EditDistForVecString.cc:204-283`. -/
def incrRow (k : Costs) (x : Str) (d : List Str) (prev new : List Score) : Option (List Score × List Op) :=
  if d.length < prev.length then
    incrLoop k x (splitLast d).1 prev (splitLast d).2 (prev.length - d.length)
      (new ++ List.replicate (prev.length - new.length) 0) []
  else none

/-! ## `PfsmEcmForWg` -/

/-- `constructInitEsi`, `PfsmEcmForWg.cc:44-56`. -/
def initEsi (k : Costs) : Option (List Score) := (wordEditDist k [] []).map fun c => [c]

/-- `constructEsi`, `PfsmEcmForWg.cc:59-77`. -/
def constructEsi (k : Costs) (prev : List Score) (w : Str) : Option Esi :=
  match prev.head?, wordEditDist k [w] [] with
  | some p, some c => some ⟨[p + c], [.none]⟩
  | _, _ => none

/-- `extendEsi`, `PfsmEcmForWg.cc:91-107`. -/
def extendEsi (k : Costs) (d : List Str) (prev : List Score) (w : Str) (e : Esi) : Option Esi :=
  (incrRow k w d prev e.scr).map fun r => ⟨r.1, e.op ++ r.2⟩

/-- The loop over a run of insertions, `PfsmEcmForWg.cc:132-134`. -/
def runStart (op : List Op) : Nat → Option Nat
  | 0 => if op[0]? = some .ins then none else some 0
  | j + 1 => if op[j + 1]? = some .ins then runStart op j else some (j + 1)

/-- An element of the result of `obtainLastInsPrefWordVecFromEsi`, `PfsmEcmForWg.cc:121-148`. -/
def lastIns (op : List Op) (j : Nat) : Option Nat :=
  match op[j]? with
  | none => none
  | some .hit => if j = 0 then none else some (j - 1)
  | some .subst => if j = 0 then none else some (j - 1)
  | some .del => some j
  | some .none => some 0
  | some .prefDel => some 0
  | some .ins =>
    match runStart op j with
    | none => none
    | some r =>
      if op[r]? = some .hit ∨ op[r]? = some .subst then if r = 0 then none else some (r - 1)
      else some r

/-- `removeLastPosFromEsi`, `PfsmEcmForWg.cc:182-196`, on a vector. -/
def removeLast {A : Type} (l : List A) : List A := if l.length > 1 then l.dropLast else l

/-! ## State of the processor -/

/-- The data members that depend on the graph and on the prefix, `WgProcessorForAnlp.h:106-138`. `none` in `preds` is
`INVALID_ARCID`. -/
structure PS where
  prefVec : List Str
  rest : List Score
  esiS : Nat → List Score
  esiA : Nat → List Esi
  wgS : Nat → Score
  best : Nat → List Score
  preds : Nat → List (Option Nat)

/-- The parameters: costs of the error correcting model, weight of the graph and weight of the model. -/
structure Par where
  k : Costs
  wgW : Score
  ecmW : Score

/-- Assignment of an element of a vector. -/
def upd {A : Type} (f : Nat → A) (i : Nat) (v : A) : Nat → A := fun j => if j = i then v else f j

/-- `updateBestScoresForInitState`, `WgProcessorForAnlp.h:771-796`. -/
def updateInit (g : WG) (P : Par) (st : PS) : PS :=
  { st with
    wgS := upd st.wgS 0 g.init
    best := upd st.best 0 ((st.esiS 0).map fun c => P.ecmW * (-c) + P.wgW * g.init)
    preds := upd st.preds 0 ((st.esiS 0).map fun _ => none) }

/-- The values at one position: `bestScoresForState`, `bestPredsForState` and the score vector of the state. -/
structure Cell where
  best : Score
  pred : Option Nat
  scr : Score

/-- The body of the loop of `updateBestScoresForState`, `WgProcessorForAnlp.h:847-861`, with the assignment of
`updateEsiPositions` (`PfsmEcmForWg.cc:151-173`) for the updated positions. -/
def relax (P : Par) (id : Nat) (wgScr : Score) (c : Cell) (ecm : Score) : Cell :=
  if c.best < P.ecmW * (-ecm) + P.wgW * wgScr then ⟨P.ecmW * (-ecm) + P.wgW * wgScr, some id, ecm⟩ else c

/-- The score vector used for an arc: that of its last word, or that of its predecessor state if it has no words,
`WgProcessorForAnlp.h:806-816`. -/
def arcEcm (st : PS) (id : Nat) (a : Arc) : List Score :=
  match (st.esiA id).getLast? with
  | none => st.esiS a.pred
  | some e => e.scr

/-- A vector with elements added until it has `n`. -/
def pad {A : Type} (n : Nat) (v : A) (l : List A) : List A := l ++ List.replicate (n - l.length) v

/-- The cells of the successor state after the update; the positions are independent, so that the loop is written as a map. -/
def newCells (P : Par) (id : Nat) (wgScr : Score) (diff : Nat) (ecm best : List Score) (preds : List (Option Nat))
    (scr : List Score) : List Cell :=
  (List.range ecm.length).map fun i =>
    if ecm.length - (if diff = 0 then ecm.length else diff) ≤ i then
      relax P id wgScr ⟨best.getD i 0, preds.getD i none, scr.getD i 0⟩ (ecm.getD i 0)
    else ⟨best.getD i 0, preds.getD i none, scr.getD i 0⟩

/-- `updateBestScoresForState`, `WgProcessorForAnlp.h:799-873`, given the score vector of the arc; all positions are visited
if `diff` is zero, the last `diff` otherwise. -/
def updateWith (P : Par) (id : Nat) (a : Arc) (diff : Nat) (ecm : List Score) (st : PS) : Option PS :=
  let best := pad ecm.length small (st.best a.succ)
  let preds := pad ecm.length none (st.preds a.succ)
  let scr := pad ecm.length 0 (st.esiS a.succ)
  let cells := newCells P id (st.wgS a.pred + a.score) diff ecm best preds scr
  if best.length = ecm.length ∧ preds.length = ecm.length ∧ scr.length = ecm.length ∧ diff ≤ ecm.length then
    some { st with
      best := upd st.best a.succ (cells.map Cell.best)
      preds := upd st.preds a.succ (cells.map Cell.pred)
      esiS := upd st.esiS a.succ (cells.map Cell.scr)
      wgS := upd st.wgS a.succ (st.wgS a.pred + a.score) }
  else none

/-- `updateBestScoresForState`, `WgProcessorForAnlp.h:799-873`. -/
def updateState (P : Par) (id : Nat) (a : Arc) (diff : Nat) (st : PS) : Option PS :=
  updateWith P id a diff (arcEcm st id a) st

/-- The loop of `initEcmScoreInfoForArc`, `WgProcessorForAnlp.h:447-453`. -/
def initWords (k : Costs) : List Str → List Score → Option (List Esi)
  | [], _ => some []
  | w :: ws, prev =>
    match constructEsi k prev w with
    | none => none
    | some e => (initWords k ws e.scr).map (e :: ·)

/-- `initWgpInfoForArc`, `WgProcessorForAnlp.h:423-454`. -/
def initArc (P : Par) (id : Nat) (a : Arc) (st : PS) : Option PS :=
  match initWords P.k a.words (st.esiS a.pred) with
  | none => none
  | some es => updateState P id a 0 { st with esiA := upd st.esiA id es }

/-- The loop of `updateEcmScoreInfoForArc`, `WgProcessorForAnlp.h:758-767`. -/
def extendWords (k : Costs) (d : List Str) : List Str → List Esi → List Score → Option (List Esi)
  | [], es, _ => some es
  | w :: ws, es, prev =>
    match extendEsi k d prev w (es.headD ⟨[], []⟩) with
    | none => none
    | some e => (extendWords k d ws es.tail e.scr).map (e :: ·)

/-- `updateWgpInfoForArc`, `WgProcessorForAnlp.h:722-768`. -/
def extendArc (P : Par) (d : List Str) (id : Nat) (a : Arc) (st : PS) : Option PS :=
  match extendWords P.k d a.words (st.esiA id) (st.esiS a.pred) with
  | none => none
  | some es => updateState P id a d.length { st with esiA := upd st.esiA id es }

/-- A loop over the arcs that are not pruned, `WgProcessorForAnlp.h:389-396`, `525-532`. -/
def sweep (g : WG) (f : Nat → Arc → PS → Option PS) : List Nat → PS → Option PS
  | [], st => some st
  | i :: l, st =>
    match g.arcs[i]?, g.pruned[i]? with
    | some a, some b =>
      if b then sweep g f l st
      else match f i a st with
        | none => none
        | some st => sweep g f l st
    | _, _ => none

/-- `initVars`, `WgProcessorForAnlp.h:1239-1300`. -/
def initVars (g : WG) (P : Par) : Option PS :=
  match WordGraph.calcRestScores g, initEsi P.k with
  | some rest, some e0 =>
    let st : PS := ⟨[], rest, upd (fun _ => []) 0 e0, fun _ => [], fun _ => 0, fun _ => [], fun _ => []⟩
    sweep g (initArc P) (List.range g.arcs.length) (updateInit g P st)
  | _, _ => none

/-- `genListOfStatesInvolvedInArcs`, `WgProcessorForAnlp.h:1303-1319`. -/
def involved (g : WG) : List Nat → List Nat → Option (List Nat)
  | [], s => some s
  | i :: l, s =>
    match g.arcs[i]?, g.pruned[i]? with
    | some a, some b =>
      involved g l (if b then s else WordGraph.setInsert a.succ (WordGraph.setInsert a.pred s))
    | _, _ => none

/-- `getValidProcPrefixVec`, `WgProcessorForAnlp.h:457-470`: the words of the previous prefix that are at the same position
in the new one. -/
def validPref : List Str → List Str → List Str
  | p :: ps, q :: qs => if p = q then p :: validPref ps qs else validPref ps qs
  | _, _ => []

/-- `getPrefixDiffVec`, `WgProcessorForAnlp.h:473-490`. -/
def prefDiff (valid q : List Str) : List Str := q.drop valid.length

/-- Removing `n` positions of a vector without checks (`pop_back`). -/
def popN {A : Type} (n : Nat) (l : List A) : Option (List A) := if n ≤ l.length then some (l.take (l.length - n)) else none

/-- `removeLast` a number of times. -/
def removeN {A : Type} : Nat → List A → List A
  | 0, l => l
  | n + 1, l => removeN n (removeLast l)

/-- The loop over the states of `updateSizeOfVars`, `WgProcessorForAnlp.h:1341-1360`. -/
def shrinkStates (n : Nat) : List Nat → PS → Option PS
  | [], st => some st
  | s :: l, st =>
    match popN n (st.best s), popN n (st.preds s) with
    | some b, some p =>
      shrinkStates n l { st with esiS := upd st.esiS s (removeN n (st.esiS s)), best := upd st.best s b, preds := upd st.preds s p }
    | _, _ => none

/-- `updateSizeOfVars`, `WgProcessorForAnlp.h:1322-1361`. -/
def shrink (inv : List Nat) (n : Nat) (st : PS) : Option PS :=
  shrinkStates n inv { st with esiA := fun i => (st.esiA i).map fun e => ⟨removeN n e.scr, removeN n e.op⟩ }

/-- `procWgGivenPrefDiff`, `WgProcessorForAnlp.h:493-533`, and `updateWgpInfoForInitState`, `705-719`. -/
def procDiff (g : WG) (P : Par) (d : List Str) (st : PS) : Option PS :=
  if d = [] then some st
  else sweep g (extendArc P d) (List.range g.arcs.length)
    (updateInit g P { st with esiS := upd st.esiS 0 (firstRow P.k d (st.esiS 0)) })

/-- The part of `correct` that brings the tables up to date, `WgProcessorForAnlp.h:338-372`, `390`. -/
def process (g : WG) (P : Par) (inv : List Nat) (q : List Str) (st : PS) : Option PS :=
  match shrink inv (st.prefVec.length - (validPref st.prefVec q).length) st with
  | none => none
  | some st => (procDiff g P (prefDiff (validPref st.prefVec q) q) st).map fun st => { st with prefVec := q }

/-! ## N-best lists -/

/-- Insertion in a `std::multimap` with `std::greater`: after the elements with the same key. -/
def nbInsert {A : Type} (x : Score × A) : List (Score × A) → List (Score × A)
  | [] => [x]
  | y :: l => if y.1 < x.1 then x :: y :: l else y :: nbInsert x l

/-- Insertion followed by the removal of the last element if there are more than `n`, `WgProcessorForAnlp.h:585-589`. -/
def nbAdd {A : Type} (n : Nat) (x : Score × A) (l : List (Score × A)) : List (Score × A) :=
  if (nbInsert x l).length > n then (nbInsert x l).dropLast else nbInsert x l

/-- `wordSatisfiesRejWordConstraint`, `WgProcessorForAnlp.h:672-702`. -/
def wordOk (w : Str) : List (Str × Str) → Bool
  | [] => true
  | r :: l =>
    if w.length < r.1.length then false
    else if r.1 ≠ w.take r.1.length then false
    else if w.drop r.1.length = r.2 then false
    else wordOk w l

/-- The loop over the successors in `obtainNbestHypStates`, `WgProcessorForAnlp.h:563-573`. -/
def bestSucc (rest : List Score) (rej : List (Str × Str)) : List Arc → Score → Option Score
  | [], b => some b
  | a :: l, b =>
    match a.words.head? with
    | none => none
    | some w =>
      if wordOk w rej then
        match rest[a.succ]? with
        | none => none
        | some r => bestSucc rest rej l (if b < a.score + r then a.score + r else b)
      else bestSucc rest rej l b

/-- The arcs of a list of identifiers. -/
def arcsOf (g : WG) : List Nat → Option (List Arc)
  | [] => some []
  | i :: l =>
    match g.arcs[i]?, arcsOf g l with
    | some a, some r => some (a :: r)
    | _, _ => none

/-- The rest score of a state given the rejected words, `WgProcessorForAnlp.h:550-577`; the inner `none` is
`hypStateOk=false`. -/
def stateRest (g : WG) (rest : List Score) (rej : List (Str × Str)) (s : Nat) : Option (Option Score) :=
  match rest[s]? with
  | none => none
  | some r =>
    if rej.isEmpty then some (some r)
    else
      match (WordGraph.arcIdsToSucc g s).bind (arcsOf g) with
      | none => none
      | some as =>
        match bestSucc rest rej as small with
        | none => none
        | some b => some (if b = small then none else some b)

/-- `obtainNbestHypStates`, `WgProcessorForAnlp.h:536-595`. -/
def nbStates (g : WG) (P : Par) (n : Nat) (rej : List (Str × Str)) (st : PS) :
    List Nat → List (Score × Nat) → Option (List (Score × Nat))
  | [], nb => some nb
  | s :: l, nb =>
    match stateRest g st.rest rej s with
    | none => none
    | some none => nbStates g P n rej st l nb
    | some (some r) =>
      match (st.best s).getLast? with
      | none => none
      | some b => nbStates g P n rej st l (nbAdd n (b + P.wgW * r, s) nb)

/-- The loop over the words of an arc in `obtainNbestHypSubStates`, `WgProcessorForAnlp.h:627-663`, for the positions `ws`. -/
def subWords (P : Par) (n : Nat) (rej : List (Str × Str)) (st : PS) (id : Nat) (a : Arc) :
    List Nat → List (Score × Nat × Nat) → Option (List (Score × Nat × Nat))
  | [], nb => some nb
  | w :: ws, nb =>
    match a.words[w + 1]? with
    | none => none
    | some nw =>
      if !rej.isEmpty && !wordOk nw rej then subWords P n rej st id a ws nb
      else
        match ((st.esiA id)[w]?).bind fun e => e.scr.getLast?, st.rest[a.pred]? with
        | some c, some r =>
          subWords P n rej st id a ws (nbAdd n (P.wgW * st.wgS a.pred + P.ecmW * (-c) + P.wgW * r, id, w) nb)
        | _, _ => none

/-- `obtainNbestHypSubStates`, `WgProcessorForAnlp.h:598-669`. -/
def nbSubStates (g : WG) (P : Par) (n : Nat) (rej : List (Str × Str)) (st : PS) :
    List Nat → List (Score × Nat × Nat) → Option (List (Score × Nat × Nat))
  | [], nb => some nb
  | i :: l, nb =>
    match g.arcs[i]?, g.pruned[i]? with
    | some a, some b =>
      if b then nbSubStates g P n rej st l nb
      else match subWords P n rej st i a (List.range (a.words.length - 1)) nb with
        | none => none
        | some nb => nbSubStates g P n rej st l nb
    | _, _ => none

/-! ## Corrections -/

/-- The loop over the words of an arc in the trace back, `WgProcessorForAnlp.h:961-965`: the words `0 … n-1`, last one first. -/
def backWords (es : List Esi) : Nat → Nat → Option Nat
  | 0, j => some j
  | w + 1, j =>
    match es[w]? with
    | none => none
    | some e =>
      match lastIns e.op j with
      | none => none
      | some j => backWords es w j

/-- `obtainBestUncorrPrefHypState`, `WgProcessorForAnlp.h:936-985`. -/
def uncorr (g : WG) (st : PS) : Nat → Nat → Nat → Option (List Str)
  | fuel, j, s =>
    if s = 0 then some []
    else match fuel with
      | 0 => none
      | fuel + 1 =>
        match (st.preds s)[j]? with
        | some (some id) =>
          match g.arcs[id]? with
          | none => none
          | some a =>
            match backWords (st.esiA id) a.words.length j with
            | none => none
            | some j => (uncorr g st fuel j a.pred).map (· ++ a.words)
        | _ => none

/-- `obtainBestUncorrPrefHypSubState`, `WgProcessorForAnlp.h:988-1021`. -/
def uncorrSub (g : WG) (st : PS) (j id w : Nat) : Option (List Str) :=
  match g.arcs[id]? with
  | none => none
  | some a =>
    match backWords (st.esiA id) (w + 1) j with
    | none => none
    | some j =>
      if w + 1 ≤ a.words.length then (uncorr g st g.arcs.length j a.pred).map (· ++ a.words.take (w + 1))
      else none

/-- `v.back()=removeLastBlank(v.back())`. -/
def stripLast (v : List Str) : List Str :=
  match v.getLast? with
  | none => v
  | some l => v.dropLast ++ [StrProc.removeLastBlank l]

/-- The combination of the prefix of the user and the uncorrected prefix, `WgProcessorForAnlp.h:1037-1052`, `1150-1165`. -/
def combine (k : Costs) (u q : List Str) : Option (List Str) :=
  if u.isEmpty then some (stripLast q) else EditDist.correctStrGivenPrefWg k u q

/-- The words of a path given from its last arc to the first one. -/
def pathWords (l : List Arc) : List Str := l.reverse.flatMap Arc.words

/-- The excluded arcs, `WgProcessorForAnlp.h:1058-1070`. -/
def excluded (g : WG) (rej : List (Str × Str)) : List Nat → Option (List Nat)
  | [] => some []
  | i :: l =>
    match g.arcs[i]?, excluded g rej l with
    | some a, some r =>
      match a.words.head? with
      | none => none
      | some w => some (if wordOk w rej then r else i :: r)
    | _, _ => none

/-- The set of excluded arcs for a state. -/
def excludedOf (g : WG) (rej : List (Str × Str)) (s : Nat) : Option (List Nat) :=
  if rej.isEmpty then some [] else (WordGraph.arcIdsToSucc g s).bind (excluded g rej)

/-- `obtainCorrForHypState`, `WgProcessorForAnlp.h:1024-1112`. -/
def corrState (g : WG) (P : Par) (q : List Str) (rej : List (Str × Str)) (st : PS) (s : Nat) : Option (List Str) :=
  match uncorr g st g.arcs.length q.length s with
  | none => none
  | some u =>
    match combine P.k u q, (excludedOf g rej s).bind (WordGraph.bestPath g s) with
    | some c, some r => some (stripLast (c ++ pathWords r.2))
    | _, _ => none

/-- `obtainCorrForHypSubState`, `WgProcessorForAnlp.h:1115-1213`. -/
def corrSub (g : WG) (P : Par) (q : List Str) (st : PS) (id w : Nat) : Option (List Str) :=
  match g.arcs[id]?, uncorrSub g st q.length id w with
  | some a, some u =>
    match combine P.k u q, WordGraph.bestPath g a.succ [] with
    | some c, some r => some (stripLast (c ++ a.words.drop (w + 1) ++ pathWords r.2))
    | _, _ => none
  | _, _ => none

/-- The loops of `obtainNbestCorrections`, `WgProcessorForAnlp.h:892-916`. -/
def nbCorr {A : Type} (n : Nat) (f : A → Option (List Str)) :
    List (Score × A) → List (Score × List Str) → Option (List (Score × List Str))
  | [], nb => some nb
  | x :: l, nb =>
    match f x.2 with
    | none => none
    | some c => nbCorr n f l (nbAdd n (x.1, c) nb)

/-- The n-best lists and the corrections, `WgProcessorForAnlp.h:376-388`. -/
def corrections (g : WG) (P : Par) (inv : List Nat) (q : List Str) (n : Nat) (rej : List (Str × Str)) (st : PS) :
    Option (List (Score × List Str)) := do
  let hs ← nbStates g P n rej st inv []
  let hss ← nbSubStates g P n rej st (List.range g.arcs.length) []
  let nb ← nbCorr n (corrState g P q rej st) hs []
  nbCorr n (fun e => corrSub g P q st e.1 e.2) hss nb

/-- The words of the prefix, `WgProcessorForAnlp.h:321-325`; undefined for an empty string. -/
def prefVecOf (p : Str) : Option (List Str) :=
  match p.getLast? with
  | none => none
  | some c =>
    let v := StrProc.stringToStringVector p
    match v.getLast? with
    | none => some v
    | some l => some (if c = ' ' then v.dropLast ++ [l ++ [' ']] else v)

/-- The variables are initialised by the first call for a graph, `WgProcessorForAnlp.h:300-317`. -/
def startState (g : WG) (P : Par) : Option PS → Option PS
  | none => initVars g P
  | some st => some st

/-- `correct`, `WgProcessorForAnlp.h:293-396`, for a graph that is not empty; `st` is `none` before the first call for the
graph (`initVarsExecuted` is false). The results are the corrections and the new state. -/
def correct (g : WG) (P : Par) (p : Str) (n : Nat) (rej : List (Str × Str)) (st : Option PS) :
    Option (List (Score × List Str) × PS) := do
  let st0 ← startState g P st
  let inv ← involved g (List.range g.arcs.length) []
  let q ← prefVecOf p
  let st1 ← process g P inv q st0
  let r ← corrections g P inv q n rej st1
  some (r, st1)

end Thot.WgProc
