import Verif.Awk.Model
import Verif.Vocab.Model
import Verif.WordAlig.Model
import Verif.SentHandler.Model
/-!
Model of the alignment files: printing (src/nlp_common/printAligFuncs.cc), reading
(src/phrase_models/AlignmentExtractor.cc) and the operations between files of `thot_alig_op`
(AlignmentExtractor.cc, AlignmentContainer.cc, thot_alig_op.cc).

`atof` and the format of the number of repetitions (`%g`, `%f`) are parameters. Input files are their contents. `none` is undefined
behaviour (an index out of bounds, `atoi` out of range) or, for the operations that iterate, fuel not sufficient.
-/
namespace Thot.AligFile
open Thot.WordAlig (Mat)
open Thot.Vocab (showNat atoi toWordIndex)
open Thot.SentHandler (joinWords)

abbrev Str := Awk.Str
abbrev Sent := List Str

/-! ### Printing -/

/-- printAligFuncs.cc:47-61 (and 110-122): the links printed after word `i`. The matrix must have row `i-1` when it has columns. -/
def printLinks (A : Mat) (i : Nat) : Option Str :=
  if i = 0 then
    some ((List.range A.J).flatMap fun j => if !WordAlig.jAligned A.I A.m j then showNat (j + 1) ++ [' '] else [])
  else if A.J = 0 then some []
  else if i - 1 < A.I then
    some ((List.range A.J).flatMap fun j => (List.replicate (A.m (i - 1) j) (showNat (j + 1) ++ [' '])).flatten)
  else none

/-- printAligFuncs.cc:44-63: the words of the source sentence from position `i` on, with their links. -/
def printSrc (A : Mat) : Nat → Sent → Option Str
  | _, [] => some []
  | i, w :: ws => match printLinks A i, printSrc A (i + 1) ws with
    | some l, some r => some (w ++ [' ', '(', '{', ' '] ++ l ++ ['}', ')', ' '] ++ r)
    | _, _ => none

/-- printAligFuncs.cc:28-65 `printAlignmentInGIZAFormat` (the version at 91-127 writes the same). -/
def printGiza (header : Str) (ns t : Sent) (A : Mat) : Option Str :=
  (printSrc A 0 ns).map fun s => header ++ '\n' :: (joinWords t ++ '\n' :: (s ++ ['\n']))

/-- WordAligMatrix.cc:548-560 `operator<<`, the rows `i-1`, ..., `0`. -/
def printRows (A : Mat) : Nat → Str
  | 0 => []
  | i + 1 => ((List.range A.J).flatMap fun j => showNat (A.m i j) ++ [' ']) ++ '\n' :: printRows A i

/-- printAligFuncs.cc:83-87: the source sentence ends with a newline only if it has a word. -/
def myNs (ns : Sent) : Str := if ns = [] then [] else joinWords ns ++ ['\n']

/-- printAligFuncs.cc:67-89 `printAlignmentInMyFormat` (the version at 129-151 writes the same). -/
def printMy (ns t : Sent) (A : Mat) (reps : Nat) : Str :=
  ['#', ' '] ++ showNat reps ++ '\n' :: (joinWords t ++ '\n' :: (myNs ns ++ printRows A A.I))

/-! ### Reading -/

/-- Members of `AlignmentExtractor`; `line` is the buffer of the input stream and `inp` what is left of it. -/
structure Ext where
  ns : Sent
  t : Sent
  mat : Mat
  reps : Rat
  line : Str
  inp : Str

/-- AlignmentExtractor.cc:64-94 `open`, `open_stream` on a new object. (`numReps` is not initialised; it is never used before
`getNextAlignment` succeeds.) -/
def openFile (file : Str) : Ext := ⟨[], [], WordAlig.empty, 0, [], file⟩

/-- AwkInputStream.cc:50-67 `getln` when its result is ignored: at the end of the file the buffer and `NF` do not change. -/
def getlnKeep (x : Ext) : Ext :=
  match Awk.getln x.inp with
  | none => x
  | some r => { x with line := r.1, inp := r.2 }

def nf (x : Ext) : Nat := Awk.getNF ' ' x.line
def dollar (x : Ext) (i : Nat) : Str := Awk.dollar ' ' x.line i

def opBr : Str := ['(', '{']
def clBr : Str := ['}', ')']

/-- AlignmentExtractor.cc:175-178, 257-260, 263-266: the fields of the line. -/
def allFields (x : Ext) : Sent := (List.range (nf x)).map fun i => dollar x (i + 1)

/-- AlignmentExtractor.cc:181-186: `slen`. -/
def countOpen (x : Ext) : Nat := (allFields x).countP (· == opBr)

/-- AlignmentExtractor.cc:206-209: `while(i<=NF && $i!="({") ++i`. -/
def skipToOpen (x : Ext) : Nat → Nat → Nat
  | 0, i => i
  | fuel + 1, i => if i ≤ nf x ∧ dollar x i ≠ opBr then skipToOpen x fuel (i + 1) else i

/-- Outcome of the loop that reads the links of a word. -/
inductive LinksRes where
  | undef
  /-- AlignmentExtractor.cc:215-218 `return 1`. -/
  | early (A : Mat)
  | done (A : Mat) (i : Nat)

/-- `trgPos-1` on `unsigned int`. -/
def pred32 (n : Nat) : Nat := (n + (2 ^ 32 - 1)) % 2 ^ 32

/-- AlignmentExtractor.cc:221-225. -/
def addLink (A : Mat) (srcPos trgPos : Nat) : Mat :=
  if srcPos > 0 ∧ srcPos - 1 < A.I ∧ pred32 trgPos < A.J then
    WordAlig.setValue A (srcPos - 1) (pred32 trgPos) (A.m (srcPos - 1) (pred32 trgPos) + 1)
  else A

/-- AlignmentExtractor.cc:211-228. -/
def readLinks (x : Ext) (srcPos : Nat) : Nat → Nat → Mat → LinksRes
  | 0, i, A => .done A i
  | fuel + 1, i, A =>
    if i ≤ nf x ∧ dollar x i ≠ clBr then
      match atoi (dollar x i) with
      | none => .undef
      | some r =>
        if pred32 (toWordIndex r) ≥ x.t.length then .early A
        else readLinks x srcPos fuel (i + 1) (addLink A srcPos (toWordIndex r))
    else .done A i

/-- AlignmentExtractor.cc:197-234: the loop on the words of the source sentence. The result is `*this` when `true` is returned. -/
def readWords : Nat → Nat → Nat → Ext → Option Ext
  | 0, _, _, x => some x
  | fuel + 1, i, srcPos, x =>
    if i ≤ nf x then
      match readLinks x srcPos (nf x + 1) (skipToOpen x (nf x + 1) (i + 1) + 1) x.mat with
      | .undef => none
      | .early A => some { x with mat := A }
      | .done A i' =>
        readWords fuel (i' + 1) (srcPos + 1)
          { x with mat := A, ns := if dollar x (i + 1) = opBr then x.ns ++ [dollar x i] else x.ns }
    else some x

/-- AlignmentExtractor.cc:167-172. -/
def headerReps (atof : Str → Rat) (x : Ext) : Rat :=
  if nf x > 2 then 1 else if nf x = 1 then 1 else atof (dollar x 2)

/-- AlignmentExtractor.cc:165. -/
def almohadilla : Str := "<ALMOHADILLA>".toList

/-- AlignmentExtractor.cc:154-239 `getNextAlignInGIZAFormat`. -/
def nextGiza (atof : Str → Rat) (x0 : Ext) : Option (Ext × Bool) :=
  match Awk.getln x0.inp with
  | none => some ({ x0 with ns := [], t := [] }, false)
  | some r =>
    let x : Ext := { x0 with ns := [], t := [], line := r.1, inp := r.2 }
    if nf x ≥ 1 ∧ (dollar x 1 = ['#'] ∨ dollar x 1 = almohadilla) then
      let x1 : Ext := getlnKeep { x with reps := headerReps atof x }
      let x2 : Ext := getlnKeep { x1 with t := allFields x1 }
      if countOpen x2 = 0 then some (x2, false)
      else
        (readWords (nf x2 + 1) 1 0 { x2 with mat := WordAlig.init (countOpen x2 - 1) x2.t.length }).map fun y => (y, true)
    else some (x, false)

/-- One row: `matrix(row-1,col-1)=atoi($col)`, the columns from `col` on. AlignmentExtractor.cc:276-281. -/
def readRow (x : Ext) (row : Nat) : Nat → Nat → Mat → Option Mat
  | 0, _, A => some A
  | n + 1, col, A => match atoi (dollar x (col + 1)) with
    | none => none
    | some r => readRow x row n (col + 1) (WordAlig.setValue A row col (toWordIndex r))

/-- AlignmentExtractor.cc:269-284: the rows `row-1`, ..., `0`. -/
def readRows : Nat → Ext → Option (Ext × Bool)
  | 0, x => some (x, true)
  | row + 1, x0 =>
    let x := getlnKeep x0
    if nf x ≠ x.t.length then some (x, false)
    else match readRow x row x.t.length 0 x.mat with
      | none => none
      | some A => readRows row { x with mat := A }

/-- AlignmentExtractor.cc:242-289 `getNextAlignInAlignOpFormat`. Without source words the size of the matrix wraps (`none`). -/
def nextMy (atof : Str → Rat) (x0 : Ext) : Option (Ext × Bool) :=
  match Awk.getln x0.inp with
  | none => some ({ x0 with ns := [], t := [], mat := WordAlig.empty }, false)
  | some r =>
    let x : Ext := { x0 with ns := [], t := [], mat := WordAlig.empty, line := r.1, inp := r.2 }
    if nf x = 2 ∧ dollar x 1 = ['#'] then
      let x1 : Ext := getlnKeep { x with reps := atof (dollar x 2) }
      let x2 : Ext := getlnKeep { x1 with t := allFields x1 }
      let x3 : Ext := { x2 with ns := allFields x2 }
      if x3.ns = [] then none
      else readRows (x3.ns.length - 1) { x3 with mat := WordAlig.init (x3.ns.length - 1) x3.t.length }
    else some (x, false)

/-- AlignmentExtractor.cc:292-312 `transposeAlig`. -/
def transposeAlig (x : Ext) : Ext :=
  { x with t := x.ns.drop 1, ns := (x.ns.head?.getD []) :: x.t, mat := WordAlig.transpose x.mat }

/-- Reading a whole file: `while(getNextAlignment())`. -/
def readAll (next : Ext → Option (Ext × Bool)) : Nat → Ext → Option (List (Sent × Sent × Mat × Rat))
  | 0, _ => none
  | fuel + 1, x => match next x with
    | none => none
    | some r => if r.2 then (readAll next fuel r.1).map ((r.1.ns, r.1.t, r.1.mat, r.1.reps) :: ·) else some []

/-! ### Operations between files -/

/-- The operations of thot_alig_op. -/
inductive Opn where
  | and | or | sum | sym1 | sym2 | grd
deriving DecidableEq, Repr

/-- The operations on matrices (AlignmentExtractor.cc:354, 412, 470, 528, 587, 646). -/
def applyOpn (fuel : Nat) : Opn → Mat → Mat → Option Mat
  | .and, A, B => some (WordAlig.andAssign A B)
  | .or, A, B => some (WordAlig.orAssign A B)
  | .sum, A, B => some (WordAlig.addAssign A B)
  | .sym1, A, B => WordAlig.symmetr1 fuel A B
  | .sym2, A, B => WordAlig.symmetr2 fuel A B
  | .grd, A, B => WordAlig.growDiagFinal fuel A B

/-- AlignmentExtractor.cc:351-360 et al.: the matrix printed for `self`. -/
def combine (fuel : Nat) (o : Opn) (tr : Bool) (self other : Ext) : Option Mat :=
  let other := if tr then transposeAlig other else other
  if self.t = other.t ∧ self.ns = other.ns then applyOpn fuel o self.mat other.mat else some self.mat

/-- AlignmentExtractor.cc:347-365 (`join`), 404-423, 462-481, 520-539, 579-598, 638-657: the loop; the result is what is written.
The other file is read first. `header` is `# %g`. -/
def opLoop (atof : Str → Rat) (fmt : Rat → Str) (mf : Nat) (o : Opn) (tr : Bool) : Nat → Ext → Ext → Option Str
  | 0, _, _ => none
  | fuel + 1, self, other => match nextGiza atof other with
    | none => none
    | some ob => if ob.2 = false then some [] else match nextGiza atof self with
      | none => none
      | some sb => if sb.2 = false then some [] else match combine mf o tr sb.1 ob.1 with
        | none => none
        | some A => match printGiza (['#', ' '] ++ fmt sb.1.reps) sb.1.ns sb.1.t A,
            opLoop atof fmt mf o tr fuel { sb.1 with mat := A } ob.1 with
          | some l, some r => some (l ++ r)
          | _, _ => none

/-- The six functions on the contents of two existing files: the contents of the output file. -/
def opFiles (atof : Str → Rat) (fmt : Rat → Str) (mf : Nat) (o : Opn) (tr : Bool) (fuel : Nat) (self other : Str) : Option Str :=
  opLoop atof fmt mf o tr fuel (openFile self) (openFile other)

/-! ### thot_alig_op with a file of operations, not exhaustive -/

/-- thot_alig_op.cc:265-300: the names of the operations. -/
def opnOf (s : Str) : Option Opn :=
  if s = "-and".toList then some .and
  else if s = "-or".toList then some .or
  else if s = "-sum".toList then some .sum
  else if s = "-sym1".toList then some .sym1
  else if s = "-sym2".toList then some .sym2
  else if s = "-grd".toList then some .grd
  else none

/-- How the tool ends: with success, with an error, undefined; and the contents of the output file, if it exists. -/
inductive ToolRes where
  | undef
  | error (out : Option Str)
  | ok (out : Option Str)
deriving DecidableEq

/-- The rest of the lines of the file. `cur`: contents of the file being operated; `out`: the output file. `fs` are the files, the
output file (named `outName`) excepted. An operation truncates the output file before opening the other one
(AlignmentExtractor.cc:323-344). thot_alig_op.cc:238-338. -/
def runOps (atof : Str → Rat) (fmt : Rat → Str) (mf fuel : Nat) (fs : Str → Option Str) (outName : Str) :
    List Str → Str → Option Str → ToolRes
  | [], _, out => .ok out
  | l :: ls, cur, out =>
    if Awk.getNF ' ' l = 3 then
      match atoi (Awk.dollar ' ' l 3) with
      | none => .undef
      | some tr => match opnOf (Awk.dollar ' ' l 1) with
        | some o =>
          let name := Awk.dollar ' ' l 2
          match (if name = outName then some [] else fs name) with
          | none => .error (some [])
          | some other => match opFiles atof fmt mf o (tr != 0) fuel cur other with
            | none => .undef
            | some res => runOps atof fmt mf fuel fs outName ls res (some res)
        | none => match out with
          | none => .error none
          | some c => runOps atof fmt mf fuel fs outName ls c (some c)
    else if Awk.getNF ' ' l ≠ 0 then .error out
    else runOps atof fmt mf fuel fs outName ls cur out

/-- thot_alig_op.cc:238-338 `parseAlignOpsFile` on the contents of the file of operations, with `cur` the contents of the file
given with `-g` and `out` the contents of the output file before, if it existed. -/
def parseAlignOpsFile (atof : Str → Rat) (fmt : Rat → Str) (mf fuel : Nat) (fs : Str → Option Str) (outName : Str) (ops cur : Str)
    (out : Option Str) : ToolRes :=
  runOps atof fmt mf fuel fs outName (Awk.readAll (ops.length + 1) ops) cur out

end Thot.AligFile
