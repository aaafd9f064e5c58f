import Verif.WordGraph.Model
import Verif.Awk.Model
import Verif.Vocab.Model
/-!
Model of `WordGraph::print` and `WordGraph::load` (`src/error_correction/WordGraph.cc:1122-1141`, `1236-1415`).

The formats of scores and weights (`operator<<` of `double` and `float`) and `atof` are parameters.  A file is its contents.  `none` is
undefined behaviour: a vector index out of bounds or `atoi` of a number that is not an `int`.
-/
namespace Thot.WordGraph
open Thot.Vocab (showNat atoi toWordIndex)

/-- The separator of the score components. -/
def bars : Str := ['|', '|', '|']

/-- `finalStatePruned`, `WordGraph.cc:1123-1141`: the arcs given by `getArcIdsToPredStates` are already the ones not pruned. -/
def finalStatePruned (g : WG) (s : Nat) : Option Bool :=
  match arcIdsToPred g s with
  | none => none
  | some l => some !(l.any fun i => g.pruned[i]? == some false)

/-- The final states, `WordGraph.cc:1372-1378`. -/
def printFinals (g : WG) : List Nat → Option Str
  | [] => some []
  | s :: l => match finalStatePruned g s, printFinals g l with
    | some b, some r => some ((if b then [] else showNat s ++ [' ']) ++ r)
    | _, _ => none

/-- The pairs of a name and a weight, `WordGraph.cc:1363-1367`. -/
def printPairs (fmtW : Score → Str) : List (Str × Score) → Str
  | [] => []
  | [p] => p.1 ++ ' ' :: fmtW p.2
  | p :: l => p.1 ++ ' ' :: (fmtW p.2 ++ ' ' :: ',' :: ' ' :: printPairs fmtW l)

/-- The weights, `WordGraph.cc:1360-1369`. -/
def printWeights (fmtW : Score → Str) (ws : List (Str × Score)) : Str :=
  if ws = [] then [] else '#' :: ' ' :: (printPairs fmtW ws ++ ['\n'])

/-- The score components of an arc, `WordGraph.cc:1399-1408`. -/
def printComps (fmt : Score → Str) (c : List Score) : Str :=
  if c = [] then [] else bars ++ ' ' :: (c.flatMap (fun x => fmt x ++ [' ']) ++ bars ++ [' '])

/-- The line of an arc, `WordGraph.cc:1396-1416` (without the newline). -/
def arcText (fmt : Score → Str) (a : Arc) (c : List Score) : Str :=
  showNat a.pred ++ ' ' :: (showNat a.succ ++ ' ' :: (fmt a.score ++ ' ' :: (printComps fmt c ++ joinWords a.words)))

/-- `arcIsUseful`, `WordGraph.cc:1390-1392`; `useful` is `none` if all the states are printed. -/
def arcUseful (useful : Option (List Bool)) (a : Arc) : Option Bool :=
  match useful with
  | none => some true
  | some u => match u[a.pred]?, u[a.succ]? with
    | some true, some b => some b
    | some false, _ => some false
    | _, _ => none

/-- The arcs, `WordGraph.cc:1387-1418`. -/
def printArcs (fmt : Score → Str) (useful : Option (List Bool)) : List Arc → List Bool → List (List Score) → Option Str
  | [], _, _ => some []
  | a :: as, b :: bs, c :: cs => match arcUseful useful a, printArcs fmt useful as bs cs with
    | some k, some r => some ((if k && !b then arcText fmt a c ++ ['\n'] else []) ++ r)
    | _, _ => none
  | _, _, _ => none

/-- `print`, `WordGraph.cc:1353-1419`. -/
def print (fmt fmtW : Score → Str) (onlyUseful : Bool) (g : WG) : Option Str :=
  match printFinals g g.final with
  | none => none
  | some fs =>
    if onlyUseful then
      match usefulStates g with
      | none => none
      | some u => (printArcs fmt (some u) g.arcs g.pruned g.comps).map fun as =>
        printWeights fmtW g.weights ++ (fs ++ '\n' :: as)
    else (printArcs fmt none g.arcs g.pruned g.comps).map fun as =>
      printWeights fmtW g.weights ++ (fs ++ '\n' :: as)

/-! ### Loading -/

/-- `NF` and `dollar` of the current line. -/
def lnf (l : Str) : Nat := Awk.getNF ' ' l
def ld (l : Str) (i : Nat) : Str := Awk.dollar ' ' l i

/-- `awk.getln()` when its result is ignored: at the end of the file the line does not change. The state is the line and the rest of
the file. -/
def getlnK (s : Str × Str) : Str × Str :=
  match Awk.getln s.2 with
  | none => s
  | some r => r

/-- The weights, `WordGraph.cc:1263-1270`: `i=2, 5, ...`; `n` bounds the number of iterations (`NF` is enough). -/
def loadWeights (atof : Str → Score) (l : Str) : Nat → Nat → List (Str × Score)
  | 0, _ => []
  | n + 1, i => if i ≤ lnf l then (ld l i, atof (ld l (i + 1))) :: loadWeights atof l n (i + 3) else []

/-- `(unsigned int)atoi(...)`. -/
def index (s : Str) : Option Nat := (atoi s).map toWordIndex

/-- The final states, `WordGraph.cc:1279-1285`, for the columns of a list. -/
def loadFinals (l : Str) : List Nat → List Nat → Option (List Nat)
  | [], fs => some fs
  | i :: is, fs => match index (ld l i) with
    | none => none
    | some s => loadFinals l is (setInsert s fs)

/-- The score components from column `col` on and the column of the first word, `WordGraph.cc:1303-1309`; `n` bounds the iterations. -/
def loadComps (atof : Str → Score) (l : Str) : Nat → Nat → List Score × Nat
  | 0, col => ([], col + 1)
  | n + 1, col => if ld l col ≠ bars ∧ col ≤ lnf l then
      (atof (ld l col) :: (loadComps atof l n (col + 1)).1, (loadComps atof l n (col + 1)).2) else ([], col + 1)

/-- The components and the column of the first word, `WordGraph.cc:1300-1310`. -/
def lineComps (atof : Str → Score) (l : Str) : List Score × Nat :=
  if ld l 4 = bars then loadComps atof l (lnf l) 5 else ([], 4)

/-- The words from column `col` on, `WordGraph.cc:1312-1319`. -/
def lineWords (l : Str) (col : Nat) : List Str := (List.range' col (lnf l + 1 - col)).map (ld l)

/-- A line after the one of the final states, `WordGraph.cc:1290-1325`. -/
def loadLine (atof : Str → Score) (g : WG) (l : Str) : Option WG :=
  if lnf l ≥ 3 then
    match index (ld l 1), index (ld l 2) with
    | some p, some s =>
      addArcWithScrComps g p s (lineWords l (lineComps atof l).2) (atof (ld l 3)) (lineComps atof l).1
    | _, _ => none
  else some g

/-- `while(awk.getln())`, `WordGraph.cc:1288-1326`. Every line takes a character, so the length of the file is enough fuel. -/
def loadLoop (atof : Str → Score) : Nat → Str → WG → Option WG
  | 0, _, g => some g
  | fuel + 1, inp, g => match Awk.getln inp with
    | none => some g
    | some r => match loadLine atof g r.1 with
      | none => none
      | some g => loadLoop atof fuel r.2 g

/-- The weights and the line of the final states, `WordGraph.cc:1255-1277`: the weights, the current line and the rest of the file. -/
def loadHead (atof : Str → Score) (file : Str) : List (Str × Score) × Str × Str :=
  let s := getlnK ([], file)
  if ld s.1 1 = ['#'] then (loadWeights atof s.1 (lnf s.1) 2, getlnK s) else ([], s)

/-- `load`, `WordGraph.cc:1237-1329`, of a file that can be opened. -/
def load (atof : Str → Score) (g : WG) (file : Str) : Option WG :=
  let h := loadHead atof file
  match loadFinals h.2.1 (List.range' 1 (lnf h.2.1)) [] with
  | none => none
  | some fs => loadLoop atof (file.length + 1) h.2.2 { clear g with weights := h.1, final := fs }

end Thot.WordGraph
