/-!
# Model of `WordGraph` (`src/error_correction/WordGraph.{h,cc}`) and `NbSearchStack`

Simplifications: scores (`double`) and weights (`float`) are exact rationals; state and arc indices are
natural numbers (no wrap at `2^32`); `std::set<HypStateIndex>` is an ascending list; words are lists of
characters.  Reading or writing a vector outside its bounds, and using an uninitialised arc, are
reported as `none`.  Messages written to `cerr` are left out.
-/

namespace Thot.WordGraph

/-- `Score`, `nlp_common/Score.h:22`. -/
abbrev Score := Rat

abbrev Str := List Char

/-- `WordGraphArc`, `WordGraphArc.h:35-43`. -/
structure Arc where
  pred : Nat
  succ : Nat
  score : Score
  words : List Str
  deriving DecidableEq, Repr

/-- `WordGraphStateData`, `WordGraphStateData.h:33-39`. -/
structure StateData where
  toPred : List Nat
  toSucc : List Nat
  deriving DecidableEq, Repr

/-- The data members of `WordGraph`, `WordGraph.h:231-237`. -/
structure WG where
  arcs : List Arc
  pruned : List Bool
  states : List StateData
  final : List Nat
  init : Score
  weights : List (Str × Score)
  comps : List (List Score)
  deriving DecidableEq, Repr

/-- `INITIAL_STATE`, `WordGraph.h:54`. -/
def initialState : Nat := 0

/-- `SMALL_SCORE`, `WordGraph.h:59`. -/
def small : Score := -999999999

/-- `WordGraph::WordGraph`, `WordGraph.cc:31-34`. -/
def new : WG := ⟨[], [], [], [], 0, [], []⟩

/-- `clear`, `WordGraph.cc:1437-1446`. -/
def clear (_ : WG) : WG := ⟨[], [], [], [], 0, [], []⟩

/-- `empty`, `WordGraph.cc:1419-1422`. -/
def isEmpty (g : WG) : Bool := g.arcs.isEmpty

/-- Weighted sum of score components, the loops of `WordGraph.cc:60-62` and `875-880`. -/
def dot : List Score → List Score → Score
  | w :: ws, c :: cs => w * c + dot ws cs
  | _, _ => 0

/-- `rescoreArcsGivenWeights`, `WordGraph.cc:47-66`, on the arcs and their component vectors. -/
def rescore (ws : List Score) : List Arc → List (List Score) → List Arc
  | [], _ => []
  | as, [] => as
  | a :: as, c :: cs =>
    (if c.length = ws.length then { a with score := dot ws c } else a) :: rescore ws as cs

/-- `setCompWeights`, `WordGraph.cc:37-44`. -/
def setCompWeights (g : WG) (ws : List (Str × Score)) : WG :=
  { g with weights := ws, arcs := rescore (ws.map Prod.snd) g.arcs g.comps }

/-- `getCompWeights`, `WordGraph.cc:69-72`. -/
def getCompWeights (g : WG) : List (Str × Score) := g.weights

/-- `wordGraphStates` with the empty elements added by the loop of `WordGraph.cc:109-110`. -/
def growStates (sts : List StateData) (succ : Nat) : List StateData :=
  sts ++ List.replicate (succ + 1 - sts.length) ⟨[], []⟩

/-- `addArc`, `WordGraph.cc:75-122`; `none` if the predecessor state does not exist. -/
def addArc (g : WG) (pred succ : Nat) (words : List Str) (score : Score) : Option WG :=
  let id := g.arcs.length
  let sts := growStates g.states succ
  match sts[pred]? with
  | none => none
  | some dp =>
    let sts := sts.set pred { dp with toSucc := dp.toSucc ++ [id] }
    match sts[succ]? with
    | none => none
    | some ds =>
      some { g with
        arcs := g.arcs ++ [⟨pred, succ, score, words⟩]
        pruned := g.pruned ++ [false]
        states := sts.set succ { ds with toPred := ds.toPred ++ [id] }
        comps := g.comps ++ [[]] }

/-- `addArcWithScrComps`, `WordGraph.cc:125-141`. -/
def addArcWithScrComps (g : WG) (pred succ : Nat) (words : List Str) (score : Score)
    (scrVec : List Score) : Option WG :=
  match addArc g pred succ words score with
  | none => none
  | some g =>
    let cs := g.comps ++ List.replicate (g.arcs.length - g.comps.length) []
    some { g with comps := cs.set (cs.length - 1) scrVec }

/-- Insertion in a `std::set<HypStateIndex>`. -/
def setInsert (x : Nat) : List Nat → List Nat
  | [] => [x]
  | y :: l => if x < y then x :: y :: l else if x = y then y :: l else y :: setInsert x l

/-- `addFinalState`, `WordGraph.cc:144-153`. -/
def addFinalState (g : WG) (s : Nat) : WG := { g with final := setInsert s g.final }

/-- `setInitialStateScore`, `WordGraph.cc:156-159`. -/
def setInitialStateScore (g : WG) (sc : Score) : WG := { g with init := sc }

/-- `wordGraphArcId2WordGraphArc`, `WordGraph.cc:200-215`, for an existing arc. -/
def arc (g : WG) (i : Nat) : Option Arc := g.arcs[i]?

/-- `arcPruned`, `WordGraph.cc:354-357`. -/
def arcPruned (g : WG) (i : Nat) : Option Bool := g.pruned[i]?

/-- The loop that keeps the arcs that are not pruned, `WordGraph.cc:242-246`, `279-283`. -/
def keepLive (g : WG) : List Nat → Option (List Nat)
  | [] => some []
  | i :: l =>
    match arcPruned g i, keepLive g l with
    | some b, some r => some (if b then r else i :: r)
    | _, _ => none

/-- `getArcIdsToPredStates`, `WordGraph.cc:233-252`. -/
def arcIdsToPred (g : WG) (s : Nat) : Option (List Nat) :=
  match g.states[s]? with
  | some d => keepLive g d.toPred
  | none => some []

/-- `getArcIdsToSuccStates`, `WordGraph.cc:270-289`. -/
def arcIdsToSucc (g : WG) (s : Nat) : Option (List Nat) :=
  match g.states[s]? with
  | some d => keepLive g d.toSucc
  | none => some []

/-- `stateIsFinal`, `WordGraph.cc:299-308`. -/
def stateIsFinal (g : WG) (s : Nat) : Bool := g.final.contains s

/-! ## Previous and rest scores -/

/-- `checkIfAltWeightsAppliable`, `WordGraph.cc:918-941`. -/
def altAppliable (g : WG) (alt : List Score) : Bool :=
  if alt.isEmpty then false
  else alt.length == g.weights.length && g.comps.all fun c => alt.length == c.length

/-- The score of arc `i` used by `calcPrevScoresWeights`, `WordGraph.cc:874-882`. -/
def effScore (g : WG) (alt : List Score) (i : Nat) (a : Arc) : Option Score :=
  if altAppliable g alt then (g.comps[i]?).map (dot alt) else some a.score

/-- The local vectors of `calcPrevScoresWeights`: previous scores, best predecessor arcs (`none` stands
for a default-constructed arc, whose fields are uninitialised) and accessible states. -/
structure PrevSt where
  prev : List Score
  best : List (Option Arc)
  acc : List Bool
  deriving DecidableEq, Repr

/-- The update for an arc whose predecessor is accessible, `WordGraph.cc:884-904`; `es` is the score of
the arc, `pv` the score of its predecessor, `sv` the score of its successor. -/
def relaxPrev (st : PrevSt) (a : Arc) (excluded : Bool) (es pv sv : Score) : PrevSt :=
  let score := if excluded then small else es + pv
  let score := if score < small then small else score
  let st := if score > sv then { st with prev := st.prev.set a.succ score, best := st.best.set a.succ (some a) }
    else st
  { st with acc := st.acc.set a.succ true }

/-- The body of the loop of `calcPrevScoresWeights` for the arc `i`, `WordGraph.cc:866-913`. -/
def prevStep (g : WG) (ex : List Nat) (alt : List Score) (i : Nat) (st : PrevSt) : Option PrevSt :=
  match arcPruned g i with
  | none => none
  | some true => some st
  | some false =>
    match arc g i with
    | none => none
    | some a =>
      match st.acc[a.pred]? with
      | none => none
      | some true =>
        match effScore g alt i a, st.prev[a.pred]?, st.prev[a.succ]? with
        | some es, some pv, some sv => some (relaxPrev st a (ex.contains i) es pv sv)
        | _, _, _ => none
      | some false =>
        match st.acc[a.succ]? with
        | none => none
        | some true => some st
        | some false => some { st with prev := st.prev.set a.succ small }

/-- The loop over the arcs of `calcPrevScoresWeights`, `WordGraph.cc:862-914`. -/
def prevLoop (g : WG) (ex : List Nat) (alt : List Score) : List Nat → PrevSt → Option PrevSt
  | [], st => some st
  | i :: l, st =>
    match prevStep g ex alt i st with
    | none => none
    | some st => prevLoop g ex alt l st

/-- `calcPrevScoresWeights`, `WordGraph.cc:818-916`: the previous scores and the best predecessor arcs. -/
def calcPrevScoresWeights (g : WG) (s : Nat) (ex : List Nat) (alt : List Score) :
    Option (List Score × List (Option Arc)) :=
  if isEmpty g then some ([], [])
  else
    let n := g.states.length
    if s < n then
      let v := if s = initialState then g.init else 0
      let st : PrevSt := ⟨(List.replicate n small).set s v, List.replicate n none, (List.replicate n false).set s true⟩
      (prevLoop g ex alt (List.range g.arcs.length) st).map fun st => (st.prev, st.best)
    else none

/-- `calcPrevScores`, `WordGraph.cc:802-815`. -/
def calcPrevScores (g : WG) (s : Nat) (ex : List Nat) : Option (List Score × List (Option Arc)) :=
  calcPrevScoresWeights g s ex []

/-- `v[s]=x` for each `s` of a list, with bounds checks. -/
def setAll (x : Score) : List Nat → List Score → Option (List Score)
  | [], v => some v
  | s :: l, v => if s < v.length then setAll x l (v.set s x) else none

/-- The body of the loop of `calcRestScores` for the arc `r`, `WordGraph.cc:960-970`. -/
def restStep (g : WG) (r : Nat) (v : List Score) : Option (List Score) :=
  match arcPruned g r with
  | none => none
  | some true => some v
  | some false =>
    match arc g r with
    | none => none
    | some a =>
      match v[a.succ]?, v[a.pred]? with
      | some sv, some pv =>
        let score := a.score + sv
        let score := if score < small then small else score
        some (if score > pv then v.set a.pred score else v)
      | _, _ => none

/-- The loop of `calcRestScores`, `WordGraph.cc:958-971`. -/
def restLoop (g : WG) : List Nat → List Score → Option (List Score)
  | [], v => some v
  | i :: l, v =>
    match restStep g i v with
    | none => none
    | some v => restLoop g l v

/-- `calcRestScores`, `WordGraph.cc:943-972`. -/
def calcRestScores (g : WG) : Option (List Score) :=
  match setAll g.init g.final (List.replicate g.states.length small) with
  | none => none
  | some v => restLoop g (List.range g.arcs.length).reverse v

/-! ## Best path -/

/-- The loop that looks for the best final state, `WordGraph.cc:1021-1028` (and `1077-1084`). -/
def bestFinal (prev : List Score) : List Nat → Nat × Score → Option (Nat × Score)
  | [], b => some b
  | s :: l, b =>
    match prev[s]? with
    | none => none
    | some v => bestFinal prev l (if b.2 < v then (s, v) else b)

/-- The loop that follows the best predecessors, `WordGraph.cc:1035-1050`.  `fuel` bounds the number of
iterations: running out of it is reported as `none`. -/
def followBest (best : List (Option Arc)) (s : Nat) : Nat → Nat → Option (List Arc)
  | fuel, idx =>
    if idx = s then some []
    else
      match fuel with
      | 0 => none
      | fuel + 1 =>
        match best[idx]? with
        | some (some a) => (followBest best s fuel a.pred).map (a :: ·)
        | _ => none

/-- `bestPathFromFinalStateToIdxAux`, `WordGraph.cc:1011-1053`: the score and the arcs, last one first. -/
def bestPathAux (g : WG) (s : Nat) (prev : List Score) (best : List (Option Arc)) :
    Option (Score × List Arc) :=
  match bestFinal prev g.final (initialState, small) with
  | none => none
  | some b =>
    if stateIsFinal g b.1 then (followBest best s g.arcs.length b.1).map fun l => (b.2, l)
    else some (b.2, [])

/-- `bestPathFromFinalStateToIdxWeights`, `WordGraph.cc:988-1008`. -/
def bestPathWeights (g : WG) (s : Nat) (ex : List Nat) (alt : List Score) : Option (Score × List Arc) :=
  match calcPrevScoresWeights g s ex alt with
  | none => none
  | some r => bestPathAux g s r.1 r.2

/-- `bestPathFromFinalStateToIdx`, `WordGraph.cc:975-985`. -/
def bestPath (g : WG) (s : Nat) (ex : List Nat) : Option (Score × List Arc) := bestPathWeights g s ex []

/-! ## Pruning -/

/-- The decision about one arc, `WordGraph.cc:1098-1117`; the state is the vector of flags and the number
of pruned arcs. -/
def pruneArc (g : WG) (prev rest : List Score) (bound : Score) (i : Nat) (st : List Bool × Nat) :
    Option (List Bool × Nat) :=
  match arc g i with
  | none => none
  | some a =>
    match prev[a.pred]?, rest[a.succ]? with
    | some p, some r =>
      if i < st.1.length then
        if p + a.score + r < bound then some (st.1.set i true, st.2 + 1) else some (st.1.set i false, st.2)
      else none
    | _, _ => none

/-- The loops over the states and their incoming arcs, `WordGraph.cc:1090-1119`. -/
def pruneLoop (g : WG) (prev rest : List Score) (bound : Score) :
    List Nat → List Bool × Nat → Option (List Bool × Nat)
  | [], st => some st
  | i :: l, st =>
    match pruneArc g prev rest bound i st with
    | none => none
    | some st => pruneLoop g prev rest bound l st

/-- `pruneArcsToPredStates`, `WordGraph.cc:1056-1121`, for the logarithm of the threshold (`small` for a
threshold of zero). -/
def pruneArcs (g : WG) (logT : Score) : Option (WG × Nat) :=
  match calcRestScores g, calcPrevScores g initialState [] with
  | some rest, some (prev, _) =>
    match bestFinal prev g.final (initialState, small) with
    | none => none
    | some b =>
      (pruneLoop g prev rest (b.2 + logT) (g.states.flatMap StateData.toPred) (g.pruned, 0)).map fun r =>
        ({ g with pruned := r.1 }, r.2)
  | _, _ => none

/-- `prune`, `WordGraph.cc:335-351`: `none` is the unlimited density, `some logT` the logarithm of the
threshold. -/
def prune (g : WG) : Option Score → Option (WG × Nat)
  | none => some ({ g with pruned := g.pruned.map fun _ => false }, 0)
  | some logT => pruneArcs g logT

/-! ## Useful states -/

/-- The loop of `obtainStatesReachableFromInit`, `WordGraph.cc:1154-1162`. -/
def reachLoop (g : WG) : List Nat → List Bool → Option (List Bool)
  | [], v => some v
  | i :: l, v =>
    match arcPruned g i, arc g i with
    | some true, _ => reachLoop g l v
    | some false, some a =>
      match v[a.pred]? with
      | none => none
      | some false => reachLoop g l v
      | some true => if a.succ < v.length then reachLoop g l (v.set a.succ true) else none
    | _, _ => none

/-- `obtainStatesReachableFromInit`, `WordGraph.cc:1144-1163`. -/
def reachableFromInit (g : WG) : Option (List Bool) :=
  reachLoop g (List.range g.arcs.length) ((List.replicate g.states.length false).set initialState true)

/-- The loop that marks the final states, `WordGraph.cc:1176-1197`. -/
def markFinal (g : WG) : List Nat → List Bool → Option (List Bool)
  | [], v => some v
  | s :: l, v =>
    match arcIdsToPred g s with
    | none => none
    | some ids =>
      if ids.isEmpty then markFinal g l v
      else if s < v.length then markFinal g l (v.set s true) else none

/-- The reverse loop of `obtainUsefulStates`, `WordGraph.cc:1205-1214`. -/
def usefulLoop (g : WG) (reach : List Bool) : List Nat → List Bool → Option (List Bool)
  | [], v => some v
  | i :: l, v =>
    match arcPruned g i, arc g i with
    | some true, _ => usefulLoop g reach l v
    | some false, some a =>
      match reach[a.pred]?, v[a.succ]? with
      | some r, some u =>
        if r && u then
          if a.pred < v.length then usefulLoop g reach l (v.set a.pred true) else none
        else usefulLoop g reach l v
      | _, _ => none
    | _, _ => none

/-- The part of `obtainUsefulStates` that computes the flags, `WordGraph.cc:1166-1214`. -/
def usefulStates (g : WG) : Option (List Bool) :=
  match markFinal g g.final (List.replicate g.states.length false), reachableFromInit g with
  | some v, some reach => usefulLoop g reach (List.range g.arcs.length).reverse v
  | _, _ => none

/-- `remappedStates.find(idx)`, built in `WordGraph.cc:1216-1232`: a useful state is mapped to the number
of useful states below it. -/
def remap (useful : List Bool) (s : Nat) : Option Nat :=
  if useful[s]? = some true then some ((useful.take s).filter id).length else none

/-- The loop that regenerates the arcs, `WordGraph.cc:683-711`, on the saved arcs, flags and component
vectors. -/
def regenArcs (useful : List Bool) : List Arc → List Bool → List (List Score) → WG → Option WG
  | [], _, _, g => some g
  | a :: as, b :: bs, c :: cs, g =>
    if b then regenArcs useful as bs cs g
    else
      match useful[a.pred]?, useful[a.succ]? with
      | some true, some true =>
        match remap useful a.pred, remap useful a.succ with
        | some p, some s =>
          match addArcWithScrComps g p s a.words a.score c with
          | none => none
          | some g => regenArcs useful as bs cs g
        | _, _ => none
      | some _, some _ => regenArcs useful as bs cs g
      | _, _ => none
  | _, _, _, _ => none

/-- `obtainWgComposedOfUsefulStates`, `WordGraph.cc:648-714`. -/
def obtainUseful (g : WG) : Option WG :=
  if isEmpty g then some g
  else
    match usefulStates g with
    | none => none
    | some u =>
      let g0 : WG := { g with arcs := [], pruned := [], states := [], comps := [], final := [] }
      regenArcs u g.arcs g.pruned g.comps
        ((g.final.filterMap (remap u)).foldl addFinalState g0)

/-! ## Topological order -/

/-- All flags of a list of indices are set. -/
def allSet (v : List Bool) : List Nat → Option Bool
  | [] => some true
  | i :: l =>
    match v[i]? with
    | none => none
    | some false => some false
    | some true => allSet v l

/-- The predecessor states of a list of arcs. -/
def predsOf (g : WG) : List Nat → Option (List Nat)
  | [] => some []
  | i :: l =>
    match arc g i, predsOf g l with
    | some a, some r => some (a.pred :: r)
    | _, _ => none

/-- The local variables of `orderArcsTopol`: the new arcs, the arcs added and the closed states. -/
structure TopoSt where
  out : List Arc
  added : List Bool
  closed : List Bool

/-- The body of the `for` of `orderArcsTopol` for the arc `i`, `WordGraph.cc:737-784`; the flag tells
whether the arc was added. -/
def topoStep (g : WG) (i : Nat) (st : TopoSt) : Option (TopoSt × Bool) :=
  match st.added[i]? with
  | none => none
  | some true => some (st, false)
  | some false =>
    match arc g i with
    | none => none
    | some a =>
      match arcIdsToPred g a.pred with
      | none => none
      | some ids =>
        match predsOf g ids with
        | none => none
        | some ps =>
          match allSet st.closed ps, allSet st.added ids with
          | some true, some true =>
            if a.pred < st.closed.length then
              some (⟨st.out ++ [a], st.added.set i true, st.closed.set a.pred true⟩, true)
            else none
          | some _, some _ => some (st, false)
          | _, _ => none

/-- One execution of the `for`, `WordGraph.cc:735-785`. -/
def topoPass (g : WG) : List Nat → TopoSt × Bool → Option (TopoSt × Bool)
  | [], st => some st
  | i :: l, (st, b) =>
    match topoStep g i st with
    | none => none
    | some (st, b') => topoPass g l (st, b || b')

/-- The `while` of `orderArcsTopol`, `WordGraph.cc:729-792`.  `fuel` bounds the number of iterations:
running out of it is reported as `none`. -/
def topoLoop (g : WG) : Nat → TopoSt → Option TopoSt
  | fuel, st =>
    if st.out.length < g.arcs.length then
      match fuel with
      | 0 => none
      | fuel + 1 =>
        match topoPass g (List.range g.arcs.length) (st, false) with
        | none => none
        | some (st, false) => some st
        | some (st, true) => topoLoop g fuel st
    else some st

/-- `orderArcsTopol`, `WordGraph.cc:717-799`: the arcs are reordered, nothing else. -/
def orderArcsTopol (g : WG) : Option WG :=
  match topoLoop g (g.arcs.length + 1)
      ⟨[], List.replicate g.arcs.length false, List.replicate g.states.length false⟩ with
  | none => none
  | some st => some (if st.out.length = g.arcs.length then { g with arcs := st.out } else g)

/-! ## N-best lists -/

/-- `NbSearchHyp`, `NbSearchHyp.h`: a list of arc identifiers. -/
abbrev Hyp := List Nat

/-- `multimap<Score,NbSearchHyp,greater<Score>>::insert`: after the elements whose key is not smaller. -/
def mmInsert (s : Score) (h : Hyp) : List (Score × Hyp) → List (Score × Hyp)
  | [] => [(s, h)]
  | e :: l => if s > e.1 then (s, h) :: e :: l else e :: mmInsert s h l

/-- `NbSearchStack::push`, `NbSearchStack.cc:38-49`, with `removeLast`, `51-61`; `max` is the maximum
size, `none` if unlimited. -/
def nbPush (max : Option Nat) (s : Score) (h : Hyp) (l : List (Score × Hyp)) : List (Score × Hyp) :=
  let l := mmInsert s h l
  match max with
  | none => l
  | some m => l.take m

/-- The reverse loop of `obtainNbSearchHeurInfo`, `WordGraph.cc:417-432`. -/
def heurLoop (g : WG) : List Nat → List Score → Option (List Score)
  | [], v => some v
  | i :: l, v =>
    match arcPruned g i, arc g i with
    | some true, _ => heurLoop g l v
    | some false, some a =>
      match v[a.succ]?, v[a.pred]? with
      | some sv, some pv => heurLoop g l (if pv < a.score + sv then v.set a.pred (a.score + sv) else v)
      | _, _ => none
    | _, _ => none

/-- `obtainNbSearchHeurInfo`, `WordGraph.cc:406-433`. -/
def heurInfo (g : WG) : Option (List Score) :=
  match setAll 0 g.final (List.replicate g.states.length small) with
  | none => none
  | some v => heurLoop g (List.range g.arcs.length).reverse v

/-- The last state of a hypothesis, `WordGraph.cc:479-487`. -/
def lastState (g : WG) (h : Hyp) : Option Nat :=
  match h.getLast? with
  | none => some initialState
  | some i => (arc g i).map Arc.succ

/-- `hypIsComplete`, `WordGraph.cc:597-609`. -/
def hypIsComplete (g : WG) (h : Hyp) : Option Bool :=
  match h.getLast? with
  | none => some false
  | some i => (arc g i).map fun a => stateIsFinal g a.succ

/-- The extensions of a hypothesis, `WordGraph.cc:511-537`. -/
def expand (g : WG) (heur : List Score) (sc : Score) (h : Hyp) : List Nat → Option (List (Score × Hyp))
  | [] => some []
  | i :: l =>
    match arc g i with
    | none => none
    | some a =>
      match heur[a.succ]?, expand g heur sc h l with
      | some hv, some r => some ((sc + a.score + hv, h ++ [i]) :: r)
      | _, _ => none

/-- One iteration of the `while` of `nbSearch` with a non-empty stack, `WordGraph.cc:474-545`; `e` is
the top of the stack, `stack` the rest.  The state is the stack and the stack of complete hypotheses. -/
def nbStep (g : WG) (heur : List Score) (max : Option Nat) (e : Score × Hyp) (stack compl : List (Score × Hyp)) :
    Option (List (Score × Hyp) × List (Score × Hyp)) :=
  match lastState g e.2 with
  | none => none
  | some s =>
    match heur[s]?, hypIsComplete g e.2 with
    | some hv, some true => some (stack, mmInsert (e.1 - hv) e.2 compl)
    | some hv, some false =>
      match arcIdsToSucc g s with
      | none => none
      | some ids =>
        match expand g heur (e.1 - hv) e.2 ids with
        | none => none
        | some r => some (r.foldl (fun st x => nbPush max x.1 x.2 st) stack, compl)
    | _, _ => none

/-- The `while` of `nbSearch`, `WordGraph.cc:461-555`.  `fuel` bounds the number of iterations: running
out of it is reported as `none`. -/
def nbLoop (g : WG) (heur : List Score) (max : Option Nat) (len : Nat) :
    Nat → List (Score × Hyp) → List (Score × Hyp) → Option (List (Score × Hyp))
  | fuel, stack, compl =>
    if compl.length ≥ len then some compl
    else
      match stack with
      | [] => some compl
      | e :: stack =>
        match fuel with
        | 0 => none
        | fuel + 1 =>
          match nbStep g heur max e stack compl with
          | none => none
          | some (st, co) => nbLoop g heur max len fuel st co

/-- The words of an arc separated by blanks, `WordGraph.cc:625-630`. -/
def joinWords : List Str → Str
  | [] => []
  | [w] => w
  | w :: ws => w ++ ' ' :: joinWords ws

/-- `stringAssociatedToHyp`, `WordGraph.cc:612-645`: the string (the sum of the score components is left
out). -/
def hypString (g : WG) : Hyp → Option Str
  | [] => some []
  | [i] => (arc g i).map fun a => joinWords a.words
  | i :: l =>
    match arc g i, hypString g l with
    | some a, some r => some (joinWords a.words ++ ' ' :: r)
    | _, _ => none

/-- `obtainNbestList` and `nbSearch`, `WordGraph.cc:360-391`, `436-595`: the scores and arcs of the
hypotheses in the order of the list (`highLevelHypList` and the first components of `nblist`).  `max` is
`NBEST_MAX_STACK_SIZE`. -/
def nbestList (g : WG) (max : Option Nat) (len fuel : Nat) : Option (List (Score × Hyp)) :=
  if isEmpty g then some []
  else
    match heurInfo g with
    | none => none
    | some heur =>
      match heur[initialState]? with
      | none => none
      | some h0 => nbLoop g heur max len fuel (nbPush max (g.init + h0) [] []) []

end Thot.WordGraph
