import Verif.StrProc.Model

/-!
# Model of the edit-distance classes of `src/error_correction`

* `_editDist<OBJ>` (`_editDist.h`), `EditDistForVec<OBJ>` (`EditDistForVec.h`),
  `EditDistForStr` (`EditDistForStr.{h,cc}`), `EditDistForVecString`
  (`EditDistForVecString.{h,cc}`), and the corrector of `_editDistBasedEcm.cc`.

Simplifications: scores are rationals instead of `double`s (so there is no rounding); indices are
natural numbers; a character is a `Char`; the verbose printing is dropped.  Every access to the
distance matrix or to a sequence is checked: `none` stands for an out-of-range access (undefined
behaviour of the C++ program).  The code is modelled in its default configuration, with neither
`EDIT_DIST_FAST_ED_VECSTR` nor `EDIT_DIST_WITHOUT_BLANKS` defined.
-/

namespace Thot.EditDist

abbrev Str := StrProc.Str
abbrev Score := Rat

/-- The operation identifiers, `BaseEditDist.h:39-48`. -/
inductive Op where
  | none | hit | ins | del | subst | prefDel
  deriving DecidableEq, Repr

/-- The members `hitCost`, `insCost`, `substCost`, `delCost`, `_editDist.h:90-93`; set by
`setErrorModel`, `_editDist.h:169-178` (and `EditDistForVecString.cc:286-299`, which sets the same
costs at word and character level). -/
structure Costs where
  hit : Score
  ins : Score
  subst : Score
  del : Score

/-- Constructor `_editDist()`, `_editDist.h:158-165`. -/
def Costs.default : Costs := ⟨0, 1, 1, 1⟩

/-- `DistMatrix` = `std::vector<std::vector<Score> >`. -/
abbrev DistMatrix := List (List Score)

/-- `dm[i][j]` as a value. -/
def rd (dm : DistMatrix) (i j : Nat) : Option Score :=
  match dm[i]? with
  | Option.none => Option.none
  | some r => r[j]?

/-- `dm[i][j]=v`. -/
def wr (dm : DistMatrix) (i j : Nat) (v : Score) : Option DistMatrix :=
  match dm[i]? with
  | Option.none => Option.none
  | some r => if j < r.length then some (dm.set i (r.set j v)) else Option.none

/-- `initDm`, `_editDist.h:371-390`: a square matrix of zeros. -/
def initDm (nx ny : Nat) : DistMatrix :=
  List.replicate (max nx ny + 1) (List.replicate (max nx ny + 1) 0)

/-- The return value and the output parameters of a `processMatrixCell` function. -/
structure CellRes where
  cost : Score
  pi : Nat
  pj : Nat
  op : Op

/-- The deletion step common to all the `processMatrixCell` functions: the deletion replaces the
current best when strictly cheaper (`EditDistForStr.cc:126-133`, `212-219`, `EditDistForVec.h:129-135`,
`EditDistForVecString.cc:334-340`, `432-439`). -/
def relaxDel (i j : Nat) (up : Score) (delC : Score) (delOp : Op) (b : CellRes) : CellRes :=
  if up + delC < b.cost then ⟨up + delC, i - 1, j, delOp⟩ else b

/-- The insertion step common to all the `processMatrixCell` functions (`EditDistForStr.cc:136-143`,
`222-229`, `EditDistForVec.h:136-142`, `EditDistForVecString.cc:341-347`, `442-449`). -/
def relaxIns (i j : Nat) (left : Score) (insC : Score) (b : CellRes) : CellRes :=
  if left + insC < b.cost then ⟨left + insC, i, j - 1, .ins⟩ else b

/-- The case `i!=0 && j!=0` of a `processMatrixCell` function, given the cost and the label of the
diagonal step and of the vertical step, and the cost of the horizontal one. -/
def interior (dm : DistMatrix) (i j : Nat) (pairC : Score) (pairOp : Op) (delC : Score) (delOp : Op)
    (insC : Score) : Option CellRes := do
  let d ← rd dm (i - 1) (j - 1)
  let up ← rd dm (i - 1) j
  let left ← rd dm i (j - 1)
  some (relaxIns i j left insC (relaxDel i j up delC delOp ⟨d + pairC, i - 1, j - 1, pairOp⟩))

/-- The case `i==0 || j==0` of a `processMatrixCell` function (`EditDistForStr.cc:146-172`,
`232-258`, `EditDistForVec.h:88-113`, `EditDistForVecString.cc:350-376`, `452-478`). -/
def border (dm : DistMatrix) (i j : Nat) (delC insC : Option Score) : Option CellRes :=
  if i = 0 ∧ j = 0 then some ⟨0, 0, 0, .none⟩
  else if i = 0 then do
    let left ← rd dm 0 (j - 1)
    let c ← insC
    some ⟨left + c, 0, j - 1, .ins⟩
  else do
    let up ← rd dm (i - 1) 0
    let c ← delC
    some ⟨up + c, i - 1, 0, .del⟩

/-- `EditDistForVec<OBJ>::processMatrixCell`, `EditDistForVec.h:78-147`, and
`EditDistForStr::processMatrixCell`, `EditDistForStr.cc:96-173` (whose cost functions,
`EditDistForStr.h:116-127`, ignore their arguments). -/
def cellPlain {α : Type} [DecidableEq α] (k : Costs) (x y : List α) (dm : DistMatrix) (i j : Nat) :
    Option CellRes :=
  if i ≠ 0 ∧ j ≠ 0 then do
    let a ← x[i - 1]?
    let b ← y[j - 1]?
    interior dm i j (if a = b then k.hit else k.subst) (if a = b then .hit else .subst)
      k.del .del k.ins
  else border dm i j (x[i - 1]?.map fun _ => k.del) (y[j - 1]?.map fun _ => k.ins)

/-- The inner loop `for(j=0;j<=y.size();j++) dm[i][j]=processMatrixCell(...)`, `_editDist.h:205-208`
(also `EditDistForStr.cc:83-86`, `EditDistForVecString.cc:129-132`), for the columns `js`.  The
component `σ` is the state a cell function carries along (the cache of substitution costs, or
nothing). -/
def fillRow {σ : Type} (cell : σ → DistMatrix → Nat → Nat → Option (σ × CellRes)) (i : Nat) :
    List Nat → σ → DistMatrix → Option (σ × DistMatrix)
  | [], s, dm => some (s, dm)
  | j :: js, s, dm =>
    match cell s dm i j with
    | Option.none => Option.none
    | some (s', r) =>
      match wr dm i j r.cost with
      | Option.none => Option.none
      | some dm' => fillRow cell i js s' dm'

/-- The outer loop `for(i=0;i<=x.size();i++)`, `_editDist.h:203-209` (also `EditDistForStr.cc:81-87`,
`EditDistForVecString.cc:127-133`). -/
def fillRows {σ : Type} (cell : σ → DistMatrix → Nat → Nat → Option (σ × CellRes)) (ny : Nat) :
    List Nat → σ → DistMatrix → Option (σ × DistMatrix)
  | [], s, dm => some (s, dm)
  | i :: is, s, dm =>
    match fillRow cell i (List.range (ny + 1)) s dm with
    | Option.none => Option.none
    | some (s', dm') => fillRows cell ny is s' dm'

/-- Both loops, started on the initial matrix. -/
def fillMatrix {σ : Type} (cell : σ → DistMatrix → Nat → Nat → Option (σ × CellRes)) (s : σ)
    (nx ny : Nat) : Option DistMatrix :=
  (fillRows cell ny (List.range (nx + 1)) s (initDm nx ny)).map Prod.snd

/-- A cell function without state. -/
def pureCell (cell : DistMatrix → Nat → Nat → Option CellRes) :
    Unit → DistMatrix → Nat → Nat → Option (Unit × CellRes) :=
  fun _ dm i j => (cell dm i j).map fun r => ((), r)

/-- `_editDist<OBJ>::calculateEditDistDm`, `_editDist.h:192-212`: the final matrix and the distance. -/
def calculateEditDistDm {α : Type} [DecidableEq α] (k : Costs) (x y : List α) :
    Option (DistMatrix × Score) := do
  let dm ← fillMatrix (pureCell (cellPlain k x y)) () x.length y.length
  let d ← rd dm x.length y.length
  some (dm, d)

/-- `_editDist<OBJ>::calculateEditDist`, `_editDist.h:182-188`. -/
def calculateEditDist {α : Type} [DecidableEq α] (k : Costs) (x y : List α) : Option Score :=
  (calculateEditDistDm k x y).map Prod.snd

/-- The loop `while(i>0 || j>0)` of `obtainOperations`, `_editDist.h:346-351` (and
`EditDistForStr.cc:274-279`, `EditDistForVecString.cc:532-557`): the operations and their costs, last
operation first, and the positions `(i,j)` reached after each step.  `fuel` bounds the number of
iterations: running out of it is reported as `none`, like an out-of-range access.  Simplification: the
cost of each operation, which only `_editDist` and `EditDistForVecString` read, is computed for
`EditDistForStr` too and dropped by its caller. -/
def traceLoop (cell : DistMatrix → Nat → Nat → Option CellRes) (dm : DistMatrix) :
    Nat → Nat → Nat → Option (List (Op × Score × Nat × Nat))
  | fuel, i, j =>
    if i > 0 ∨ j > 0 then
      match fuel with
      | 0 => Option.none
      | fuel + 1 =>
        match cell dm i j with
        | Option.none => Option.none
        | some r =>
          match rd dm r.pi r.pj with
          | Option.none => Option.none
          | some v =>
            match traceLoop cell dm fuel r.pi r.pj with
            | Option.none => Option.none
            | some rest => some ((r.op, r.cost - v, r.pi, r.pj) :: rest)
    else some []

/-- `_editDist<OBJ>::obtainOperations`, `_editDist.h:334-367`: operations and costs in order. -/
def obtainOperations {α : Type} [DecidableEq α] (k : Costs) (x y : List α) (dm : DistMatrix)
    (i j : Nat) : Option (List (Op × Score)) :=
  (traceLoop (cellPlain k x y) dm (i + j) i j).map fun l => (l.map fun e => (e.1, e.2.1)).reverse

/-- The table `opsPerType` (hits, insertions, substitutions, deletions). -/
structure OpCounts where
  h : Nat
  i : Nat
  s : Nat
  d : Nat
  deriving DecidableEq, Repr

/-- One iteration of the `switch` of `obtainOpsAndOpCostsPerType`, `_editDist.h:314-328`, and of
`countOpsGivenOpVec`, `_editDist.h:282-292`. -/
def countOp (c : OpCounts) : Op → OpCounts
  | .hit => { c with h := c.h + 1 }
  | .ins => { c with i := c.i + 1 }
  | .subst => { c with s := c.s + 1 }
  | .del => { c with d := c.d + 1 }
  | _ => c

/-- `countOpsGivenOpVec`, `_editDist.h:270-294`. -/
def countOps (ops : List Op) : OpCounts := ops.foldl countOp ⟨0, 0, 0, 0⟩

/-- One iteration of the `switch` of `obtainOpsAndOpCostsPerType` on the costs per type,
`_editDist.h:314-328` (`.1`: hits, then insertions, substitutions, deletions). -/
def addOpCost (c : Score × Score × Score × Score) : Op × Score → Score × Score × Score × Score
  | (.hit, v) => (c.1 + v, c.2.1, c.2.2.1, c.2.2.2)
  | (.ins, v) => (c.1, c.2.1 + v, c.2.2.1, c.2.2.2)
  | (.subst, v) => (c.1, c.2.1, c.2.2.1 + v, c.2.2.2)
  | (.del, v) => (c.1, c.2.1, c.2.2.1, c.2.2.2 + v)
  | _ => c

/-- `obtainOpsAndOpCostsPerType`, `_editDist.h:298-330`. -/
def opsAndCostsPerType (l : List (Op × Score)) : OpCounts × (Score × Score × Score × Score) :=
  (countOps (l.map Prod.fst), l.foldl addOpCost (0, 0, 0, 0))

/-- `_editDist<OBJ>::calculateEditDistOps`, `_editDist.h:216-249`: the distance, the number of
operations of each type, and the costs per type it prints. -/
def calculateEditDistOps {α : Type} [DecidableEq α] (k : Costs) (x y : List α) :
    Option (Score × OpCounts × (Score × Score × Score × Score)) := do
  let (dm, dist) ← calculateEditDistDm k x y
  let l ← obtainOperations k x y dm x.length y.length
  let r := opsAndCostsPerType l
  some (dist, r.1, r.2)

/-! ## `EditDistForStr`: distance to an incomplete prefix -/

/-- `EditDistForStr::processMatrixCellPref`, `EditDistForStr.cc:176-259`. -/
def cellStrPref (k : Costs) (x y : Str) (usePrefDel : Bool) (dm : DistMatrix) (i j : Nat) :
    Option CellRes :=
  if i ≠ 0 ∧ j ≠ 0 then do
    let a ← x[i - 1]?
    let b ← y[j - 1]?
    let delC := if usePrefDel && j == y.length then 0 else k.del
    interior dm i j (if a = b then k.hit else k.subst) (if a = b then .hit else .subst)
      delC (if delC = 0 then .prefDel else .del) k.ins
  else border dm i j (x[i - 1]?.map fun _ => k.del) (y[j - 1]?.map fun _ => k.ins)

/-- `EditDistForStr::obtainOperationsPref`, `EditDistForStr.cc:262-288`. -/
def obtainOperationsStrPref (k : Costs) (x y : Str) (dm : DistMatrix) (usePrefDel : Bool)
    (i j : Nat) : Option (List Op) :=
  (traceLoop (cellStrPref k x y usePrefDel) dm (i + j) i j).map fun l =>
    ((l.map fun e => e.1).filter fun o => o != .prefDel).reverse

/-- `EditDistForStr::calculateEditDistPrefixOpsAux`, `EditDistForStr.cc:67-93`. -/
def strPrefixOpsAux (k : Costs) (x y : Str) (usePrefDel : Bool) : Option (Score × List Op) := do
  let dm ← fillMatrix (pureCell (cellStrPref k x y usePrefDel)) () x.length y.length
  let ops ← obtainOperationsStrPref k x y dm usePrefDel x.length y.length
  let d ← rd dm x.length y.length
  some (d, ops)

/-- `EditDistForStr::calculateEditDistPrefixOps`, `EditDistForStr.cc:49-55`. -/
def strPrefixOps (k : Costs) (x y : Str) : Option (Score × List Op) := strPrefixOpsAux k x y true

/-- `EditDistForStr::calculateEditDistPrefixOpsNoPrefDel`, `EditDistForStr.cc:58-64`. -/
def strPrefixOpsNoPrefDel (k : Costs) (x y : Str) : Option (Score × List Op) :=
  strPrefixOpsAux k x y false

/-- `EditDistForStr::calculateEditDistPrefix`, `EditDistForStr.cc:39-46`. -/
def strPrefix (k : Costs) (x y : Str) : Option Score := (strPrefixOps k x y).map Prod.fst

end Thot.EditDist
