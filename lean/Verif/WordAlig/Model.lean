/-
Model of the class `WordAligMatrix`, /repo/src/nlp_common/WordAligMatrix.{h,cc}.

A matrix is its two dimensions and a cell function; only the cells `i<I, j<J` exist in the C++ object.
A cell is an `unsigned int`; "link" means non-zero. `unsigned int` overflow of `+=` is not modelled.
All double loops run over rows `i=0..I-1` and, inside, columns `j=0..J-1` (`cells`). Loops whose
iterations touch only their own cell are written as point-wise maps (`mapCells`).
-/
namespace Thot.WordAlig

abbrev Cells := Nat → Nat → Nat

/-- Members `I`, `J`, `matrix`. WordAligMatrix.h (class body). -/
structure Mat where
  I : Nat
  J : Nat
  m : Cells

/-- `matrix[i][j]=v`. -/
def upd (m : Cells) (i j v : Nat) : Cells := fun a b => if a = i ∧ b = j then v else m a b

/-- The iteration order of `for(i=0;i<I;++i) for(j=0;j<J;++j)`. WordAligMatrix.cc:316-317 et al. -/
def cells (I J : Nat) : List (Nat × Nat) :=
  (List.range I).flatMap (fun i => (List.range J).map (fun j => (i, j)))

/-- A double loop assigning to each cell a function of its old value. -/
def mapCells (A : Mat) (f : Nat → Nat → Nat → Nat) : Mat :=
  { A with m := fun i j => if i < A.I ∧ j < A.J then f i j (A.m i j) else A.m i j }

/-- Constructor `WordAligMatrix()`. WordAligMatrix.cc:28-32. -/
def empty : Mat := ⟨0, 0, fun _ _ => 0⟩

/-- `init(I_dims,J_dims)` (both branches leave all cells zero). WordAligMatrix.cc:75-92. -/
def init (I J : Nat) : Mat := ⟨I, J, fun _ _ => 0⟩

/-- `operator=` from another object: `init` then a cell-wise copy. WordAligMatrix.cc:180-190. -/
def assign (B : Mat) : Mat := mapCells (init B.I B.J) (fun i j _ => B.m i j)

/-- `operator=` when the argument is the object itself: `init` has already zeroed the cells that are
then copied. WordAligMatrix.cc:180-190. -/
def assignSelf (A : Mat) : Mat :=
  let A' := init A.I A.J
  mapCells A' (fun i j _ => A'.m i j)

/-- `reset()`. WordAligMatrix.cc:132-139. -/
def reset (A : Mat) : Mat := mapCells A (fun _ _ _ => 0)
/-- `set()`. WordAligMatrix.cc:142-149. -/
def setAll (A : Mat) : Mat := mapCells A (fun _ _ _ => 1)

/-- `set(i,j)`. WordAligMatrix.cc:152-155. -/
def set (A : Mat) (i j : Nat) : Mat := if i < A.I ∧ j < A.J then { A with m := upd A.m i j 1 } else A

/-- `setValue(i,j,val)`. WordAligMatrix.cc:158-161. -/
def setValue (A : Mat) (i j v : Nat) : Mat :=
  if i < A.I ∧ j < A.J then { A with m := upd A.m i j v } else A

/-- `transpose()`: fill a fresh `J x I` matrix, then assign it. WordAligMatrix.cc:164-177. -/
def transpose (A : Mat) : Mat := assign (mapCells (init A.J A.I) (fun j i _ => A.m i j))

/-- `operator==`. WordAligMatrix.cc:193-206. -/
def eqMat (A B : Mat) : Bool :=
  if B.I ≠ A.I ∨ B.J ≠ A.J then false
  else (cells A.I A.J).all (fun c => B.m c.1 c.2 == A.m c.1 c.2)

/-- `flip()`. WordAligMatrix.cc:209-220. -/
def flip (A : Mat) : Mat := mapCells A (fun _ _ v => if v = 0 then 1 else 0)

/-- `operator&=`. WordAligMatrix.cc:223-238. -/
def andAssign (A B : Mat) : Mat :=
  if A.I = B.I ∧ A.J = B.J then
    mapCells A (fun i j v => if ¬ (v ≠ 0 ∧ B.m i j ≠ 0) then 0 else v)
  else A

/-- `operator|=`. WordAligMatrix.cc:241-253. -/
def orAssign (A B : Mat) : Mat :=
  if A.I = B.I ∧ A.J = B.J then mapCells A (fun i j v => if v ≠ 0 ∨ B.m i j ≠ 0 then 1 else v)
  else A

/-- `operator^=`. WordAligMatrix.cc:256-271. -/
def xorAssign (A B : Mat) : Mat :=
  if A.I = B.I ∧ A.J = B.J then
    mapCells A (fun i j v =>
      if (v ≠ 0 ∧ B.m i j = 0) ∨ (v = 0 ∧ B.m i j ≠ 0) then 1 else 0)
  else A

/-- `operator+=`. WordAligMatrix.cc:273-284. -/
def addAssign (A B : Mat) : Mat :=
  if A.I = B.I ∧ A.J = B.J then mapCells A (fun i j v => v + B.m i j) else A

/-- `operator-=`. WordAligMatrix.cc:287-299. -/
def subAssign (A B : Mat) : Mat :=
  if A.I = B.I ∧ A.J = B.J then mapCells A (fun i j v => if v ≠ 0 ∧ B.m i j = 0 then 1 else v)
  else A

/-- `putAligVec(aligVec)`, loop from column `j`; row index past the matrix is undefined (`none`).
WordAligMatrix.cc:95-106. -/
def putLoop (I : Nat) : Nat → List Nat → Cells → Option Cells
  | _, [], m => some m
  | j, p :: ps, m =>
    if p > 0 then
      if p - 1 < I then putLoop I (j + 1) ps (upd m (p - 1) j 1) else none
    else putLoop I (j + 1) ps m

/-- `putAligVec`. WordAligMatrix.cc:95-106. -/
def putAligVec (A : Mat) (v : List Nat) : Option Mat :=
  if v.length = A.J then (putLoop A.I 0 v A.m).map (fun m => { A with m := m }) else some A

/-- Inner loop of `getAligVec` for column `j`, rows from `i`: the current `aligVec[j]` is `cur`.
`none`: the function returns false. WordAligMatrix.cc:115-126. -/
def getCol (m : Cells) (j : Nat) : Nat → Nat → Nat → Option Nat
  | 0, _, cur => some cur
  | n + 1, i, cur =>
    if m i j ≠ 0 then
      if cur = 0 then getCol m j n (i + 1) i else none
    else getCol m j n (i + 1) cur

/-- `getAligVec`: `none` when it returns false, else the vector. WordAligMatrix.cc:109-129. -/
def getAligVec (A : Mat) : Option (List Nat) :=
  (List.range A.J).mapM (fun j => getCol A.m j A.I 0 0)

/-- `jAligned(j)`. WordAligMatrix.cc:512-520. -/
def jAligned (I : Nat) (m : Cells) (j : Nat) : Bool := (List.range I).any (fun i => m i j != 0)

/-- `iAligned(i)`. WordAligMatrix.cc:523-531. -/
def iAligned (J : Nat) (m : Cells) (i : Nat) : Bool := (List.range J).any (fun j => m i j != 0)

/-- `ijInNeighbourhood`. (Called only with `i<I`, `j<J`, so `I-1` does not wrap.)
WordAligMatrix.cc:483-491. -/
def ijInNeighbourhood (I J : Nat) (m : Cells) (i j : Nat) : Bool :=
  if i > 0 ∧ m (i - 1) j ≠ 0 then true
  else if j > 0 ∧ m i (j - 1) ≠ 0 then true
  else if i < I - 1 ∧ m (i + 1) j ≠ 0 then true
  else if j < J - 1 ∧ m i (j + 1) ≠ 0 then true
  else false

/-- `ijHasHorizNeighbours`. WordAligMatrix.cc:494-500. -/
def ijHasHorizNeighbours (J : Nat) (m : Cells) (i j : Nat) : Bool :=
  if j > 0 ∧ m i (j - 1) ≠ 0 then true
  else if j < J - 1 ∧ m i (j + 1) ≠ 0 then true
  else false

/-- `ijHasVertNeighbours`. WordAligMatrix.cc:503-509. -/
def ijHasVertNeighbours (I : Nat) (m : Cells) (i j : Nat) : Bool :=
  if i > 0 ∧ m (i - 1) j ≠ 0 then true
  else if i < I - 1 ∧ m (i + 1) j ≠ 0 then true
  else false

/-- Body of the double loop of `symmetr1`. WordAligMatrix.cc:319-326. -/
def sym1Step (I J : Nat) (w aux : Cells) (m : Cells) (c : Nat × Nat) : Cells :=
  if (w c.1 c.2 ≠ 0 ∨ aux c.1 c.2 ≠ 0) ∧ m c.1 c.2 = 0 then
    if !jAligned I m c.2 && !iAligned J m c.1 then upd m c.1 c.2 1
    else if ijInNeighbourhood I J m c.1 c.2 then upd m c.1 c.2 1
    else m
  else m

/-- Body of the double loop of `symmetr2`. WordAligMatrix.cc:352-360. -/
def sym2Step (I J : Nat) (w aux : Cells) (m : Cells) (c : Nat × Nat) : Cells :=
  if (w c.1 c.2 ≠ 0 ∨ aux c.1 c.2 ≠ 0) ∧ m c.1 c.2 = 0 then
    if !jAligned I m c.2 && !iAligned J m c.1 then upd m c.1 c.2 1
    else if ijInNeighbourhood I J m c.1 c.2 then
      if !(ijHasHorizNeighbours J m c.1 c.2 && ijHasVertNeighbours I m c.1 c.2) then upd m c.1 c.2 1
      else m
    else m
  else m

/-- `while(!(*this==prev)) { prev=*this; body }`. `fuel` bounds the number of tests; `none` means that
the loop has not ended yet. WordAligMatrix.cc:313-328, 346-362. -/
def symWhile (body : Cells → Cells) : Nat → Mat → Mat → Option Mat
  | 0, _, _ => none
  | n + 1, prev, cur =>
    if eqMat cur prev then some cur else symWhile body n cur { cur with m := body cur.m }

/-- `symmetr1(waMatrix)`. WordAligMatrix.cc:302-331. -/
def symmetr1 (fuel : Nat) (A B : Mat) : Option Mat :=
  if A.I = B.I ∧ A.J = B.J then
    symWhile (fun m => (cells A.I A.J).foldl (sym1Step A.I A.J B.m A.m) m) fuel empty (andAssign A B)
  else some A

/-- `symmetr2(waMatrix)`. WordAligMatrix.cc:334-365. -/
def symmetr2 (fuel : Nat) (A B : Mat) : Option Mat :=
  if A.I = B.I ∧ A.J = B.J then
    symWhile (fun m => (cells A.I A.J).foldl (sym2Step A.I A.J B.m A.m) m) fuel empty (andAssign A B)
  else some A

/-- `obtainAdjacentCells(i,j)`. `int` arithmetic on small indices is exact.
WordAligMatrix.cc:454-480. -/
def obtainAdjacentCells (I J i j : Nat) : List (Nat × Nat) :=
  ([-1, 0, 1] : List Int).flatMap (fun di =>
    ([-1, 0, 1] : List Int).filterMap (fun dj =>
      if di ≠ 0 ∨ dj ≠ 0 then
        let ip := (i : Int) + di
        let jp := (j : Int) + dj
        if ip < I ∧ jp < J ∧ ip ≥ 0 ∧ jp ≥ 0 then some (ip.toNat, jp.toNat) else none
      else none))

/-- The statement inside the neighbour loop of `growDiagFinal`. WordAligMatrix.cc:408-413. -/
def gdfNeighStep (I J : Nat) (join : Cells) (m : Cells) (n : Nat × Nat) : Cells :=
  if (!iAligned J m n.1 || !jAligned I m n.2) && join n.1 n.2 != 0 then upd m n.1 n.2 1 else m

/-- Body of the double loop of the growing phase. WordAligMatrix.cc:402-415. -/
def gdfStep (I J : Nat) (join : Cells) (m : Cells) (c : Nat × Nat) : Cells :=
  if m c.1 c.2 ≠ 0 then (obtainAdjacentCells I J c.1 c.2).foldl (gdfNeighStep I J join) m else m

/-- `while(!end) { body; if(prevMat==*this) end=true; else prevMat=*this; }`.
WordAligMatrix.cc:395-422. -/
def gdfWhile (body : Cells → Cells) : Nat → Mat → Mat → Option Mat
  | 0, _, _ => none
  | n + 1, prev, cur =>
    let cur' : Mat := { cur with m := body cur.m }
    if eqMat prev cur' then some cur' else gdfWhile body n cur' cur'

/-- Body of a "final" pass over the links of `src`. WordAligMatrix.cc:429-432, 441-444. -/
def finalStep (I J : Nat) (src : Cells) (m : Cells) (c : Nat × Nat) : Cells :=
  if (!iAligned J m c.1 || !jAligned I m c.2) && src c.1 c.2 != 0 then upd m c.1 c.2 1 else m

/-- `growDiagFinal(waMatrix)`. WordAligMatrix.cc:368-451. -/
def growDiagFinal (fuel : Nat) (A B : Mat) : Option Mat :=
  if A.I ≠ B.I ∨ A.J ≠ B.J then some A
  else
    let inter := andAssign A B
    let join := orAssign A B
    (gdfWhile (fun m => (cells A.I A.J).foldl (gdfStep A.I A.J join.m) m) fuel inter inter).map
      (fun M =>
        let m1 := (cells A.I A.J).foldl (finalStep A.I A.J A.m) M.m
        let m2 := (cells A.I A.J).foldl (finalStep A.I A.J B.m) m1
        { M with m := m2 })

end Thot.WordAlig
