import Verif.AligFile.Model
import Verif.Common.AMap
/-!
Model of `AlignmentContainer` (src/phrase_models/AlignmentContainer.cc) and of the exhaustive mode of `thot_alig_op`.
-/
namespace Thot.AligFile
open Thot.WordAlig (Mat)
open Thot.Vocab (showNat atoi)

/-- `sVocab` and `sVocabInv` (or `tVocab`, `tVocabInv`), AlignmentContainer.h:93-96. -/
structure Voc where
  map : List (Str × Nat)
  inv : List Str

/-- AlignmentContainer.cc:323-333: one word. -/
def encWord (v : Voc) (w : Str) : Voc × Nat :=
  match AMap.lk v.map w with
  | some i => (v, i)
  | none => (⟨AMap.put v.map w v.map.length, v.inv ++ [w]⟩, v.map.length)

/-- AlignmentContainer.cc:312-336 `vecString2VecUnsigInt`. -/
def encode : Voc → Sent → Voc × List Nat
  | v, [] => (v, [])
  | v, w :: ws => ((encode (encWord v w).1 ws).1, (encWord v w).2 :: (encode (encWord v w).1 ws).2)

/-- AlignmentContainer.cc:339-351 `vecUnsigInt2VecString`. -/
def decode (inv : List Str) (ids : List Nat) : Sent := ids.filterMap (inv[·]?)

/-- AligInfo.h:34-39. The counter is a natural number (it does not overflow). -/
structure Info where
  s : List Nat
  mat : Mat
  count : Nat

/-- VecUnsignedIntSortCriterion.h:40-44. -/
def ltSame : List Nat → List Nat → Bool
  | x :: a, y :: b => if y < x then false else if x < y then true else ltSame a b
  | _, _ => false

/-- VecUnsignedIntSortCriterion.h:34-46. -/
def ltVec (a b : List Nat) : Bool :=
  if b.length < a.length then false else if a.length < b.length then true else ltSame a b

/-- The members of `AlignmentContainer`; `cells` is `aligCont`, in the order in which it is iterated. -/
structure Cont where
  tv : Voc
  sv : Voc
  cells : List (List Nat × List Info)

def Cont.empty : Cont := ⟨⟨[], []⟩, ⟨[], []⟩, []⟩

/-- `aligCont[t_id]=alInfoVec` for a new key: std::map keeps the keys in the order of the criterion. AlignmentContainer.cc:79-81. -/
def insCell (t : List Nat) (l : List Info) : List (List Nat × List Info) → List (List Nat × List Info)
  | [] => [(t, l)]
  | c :: cs => if ltVec t c.1 then (t, l) :: c :: cs else c :: insCell t l cs

/-- AlignmentContainer.cc:85-93. -/
def addInfo (s : List Nat) (A : Mat) : List Info → List Info
  | [] => [⟨s, A, 1⟩]
  | x :: xs => if x.s = s then { x with count := x.count + 1 } :: xs else x :: addInfo s A xs

/-- AlignmentContainer.cc:76-94. -/
def addCell (cells : List (List Nat × List Info)) (t s : List Nat) (A : Mat) : List (List Nat × List Info) :=
  match AMap.lk cells t with
  | none => insCell t [⟨s, A, 1⟩] cells
  | some l => AMap.put cells t (addInfo s A l)

/-- AlignmentContainer.cc:67-94: one sentence pair. -/
def addEntry (c : Cont) (x : Ext) : Cont :=
  ⟨(encode c.tv x.t).1, (encode c.sv x.ns).1, addCell c.cells (encode c.tv x.t).2 (encode c.sv x.ns).2 x.mat⟩

/-- `if(transpose) alignmentExtractor.transposeAlig()`. -/
def turn (tr : Bool) (x : Ext) : Ext := if tr then transposeAlig x else x

/-- AlignmentContainer.cc:64-98. -/
def extractLoop (atof : Str → Rat) (tr : Bool) : Nat → Ext → Cont → Option Cont
  | 0, _, _ => none
  | fuel + 1, x, c => match nextGiza atof x with
    | none => none
    | some r => if r.2 then extractLoop atof tr fuel (turn tr r.1) (addEntry c (turn tr r.1)) else some c

/-- AlignmentContainer.cc:40-102 `extractAlignmentsFromGIZAFile` on the contents of the file. -/
def extractFile (atof : Str → Rat) (tr : Bool) (fuel : Nat) (file : Str) : Option Cont :=
  extractLoop atof tr fuel (openFile file) Cont.empty

/-- AlignmentContainer.cc:124-130 (and 159-165, 192-198, 227-233, 262-268, 297-303): the elements with the source sentence. -/
def opInfos (mf : Nat) (o : Opn) (s : List Nat) (B : Mat) : List Info → Option (List Info)
  | [] => some []
  | x :: xs => match (if s = x.s then applyOpn mf o x.mat B else some x.mat), opInfos mf o s B xs with
    | some A, some r => some ({ x with mat := A } :: r)
    | _, _ => none

/-- AlignmentContainer.cc:119-131 (and the other five): one sentence pair of the other file. -/
def opEntry (mf : Nat) (o : Opn) (c : Cont) (x : Ext) : Option Cont :=
  match AMap.lk c.cells (encode c.tv x.t).2 with
  | none => some ⟨(encode c.tv x.t).1, c.sv, c.cells⟩
  | some l => match opInfos mf o (encode c.sv x.ns).2 x.mat l with
    | none => none
    | some l' => some ⟨(encode c.tv x.t).1, (encode c.sv x.ns).1, AMap.put c.cells (encode c.tv x.t).2 l'⟩

/-- AlignmentContainer.cc:117-132 (and the other five). -/
def opLoopC (atof : Str → Rat) (mf : Nat) (o : Opn) (tr : Bool) : Nat → Ext → Cont → Option Cont
  | 0, _, _ => none
  | fuel + 1, x, c => match nextGiza atof x with
    | none => none
    | some r => if r.2 then (opEntry mf o c (turn tr r.1)).bind (opLoopC atof mf o tr fuel (turn tr r.1)) else some c

/-- thot_alig_op.cc:156-234 `parseAlignOpsFile` for a container: the container when it returns. (Its result, an error included, is
ignored: thot_alig_op.cc:91.) -/
def runOpsC (atof : Str → Rat) (mf fuel : Nat) (fs : Str → Option Str) : List Str → Cont → Option Cont
  | [], c => some c
  | l :: ls, c =>
    if Awk.getNF ' ' l = 3 then
      match atoi (Awk.dollar ' ' l 3) with
      | none => none
      | some tr => match opnOf (Awk.dollar ' ' l 1) with
        | some o => match fs (Awk.dollar ' ' l 2) with
          | none => some c
          | some other => (opLoopC atof mf o (tr != 0) fuel (openFile other) c).bind (runOpsC atof mf fuel fs ls)
        | none => runOpsC atof mf fuel fs ls c
    else if Awk.getNF ' ' l ≠ 0 then some c
    else runOpsC atof mf fuel fs ls c

/-- The infos of a cell, printed. AlignmentContainer.cc:457-463. -/
def printInfos (c : Cont) (t : List Nat) : List Info → Option Str
  | [] => some []
  | i :: is => match printGiza (['#', ' '] ++ showNat i.count) (decode c.sv.inv i.s) (decode c.tv.inv t) i.mat, printInfos c t is with
    | some a, some b => some (a ++ b)
    | _, _ => none

/-- AlignmentContainer.cc:447-466 `operator<<` (`printCompact`, 468-485, writes the same). -/
def printCompact (c : Cont) : List (List Nat × List Info) → Option Str
  | [] => some []
  | x :: xs => match printInfos c x.1 x.2, printCompact c xs with
    | some a, some b => some (a ++ b)
    | _, _ => none

/-- The header `# Sentence <n>`. -/
def sentHeader (n : Nat) : Str := "# Sentence ".toList ++ showNat n

/-- AlignmentContainer.cc:388-398: the matrices printed for a sentence pair, with the number of sentences printed before. -/
def noCompactInfos (c : Cont) (ns t : Sent) : Nat → List Info → Option (Str × Nat)
  | n, [] => some ([], n)
  | n, i :: is =>
    if ns = decode c.sv.inv i.s then
      match printGiza (sentHeader (n + 1)) ns t i.mat, noCompactInfos c ns t (n + 1) is with
      | some a, some r => some (a ++ r.1, r.2)
      | _, _ => none
    else noCompactInfos c ns t n is

/-- AlignmentContainer.cc:380-400: the loop of `printNoCompact`; the file is read again and not transposed. -/
def noCompactLoop (atof : Str → Rat) : Nat → Nat → Ext → Cont → Option Str
  | 0, _, _, _ => none
  | fuel + 1, n, x, c => match nextGiza atof x with
    | none => none
    | some r =>
      if r.2 then
        match noCompactInfos { c with tv := (encode c.tv r.1.t).1 } r.1.ns r.1.t n
            ((AMap.lk c.cells (encode c.tv r.1.t).2).getD []) with
        | none => none
        | some p => (noCompactLoop atof fuel p.2 r.1 { c with tv := (encode c.tv r.1.t).1 }).map (p.1 ++ ·)
      else some []

/-- thot_alig_op.cc:82-125 with `-e` and a file of operations: the contents of the output file. `gt`: `-gt` given instead of `-g`. -/
def exhaustiveOps (atof : Str → Rat) (mf fuel : Nat) (fs : Str → Option Str) (gt compact : Bool) (ops file : Str) : Option Str :=
  match extractFile atof gt fuel file with
  | none => none
  | some c0 => match runOpsC atof mf fuel fs (Awk.readAll (ops.length + 1) ops) c0 with
    | none => none
    | some c => if compact then printCompact c c.cells else noCompactLoop atof fuel 0 (openFile file) c

end Thot.AligFile
