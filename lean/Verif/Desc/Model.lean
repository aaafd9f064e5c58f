import Verif.Awk.Props
import Verif.SentHandler.Props
import Verif.StrProc.Props
/-!
Model of `/repo/src/nlp_common/ModelDescriptorUtils.cc`: names of model files and descriptor files.

A file is its text; a name that cannot be opened is `none`. The name of the variable of the library directory and the directory are
parameters (`StrProc.expandLibDirIfFound`).
-/
namespace Thot.Desc
open Thot.Awk (Str)

/-- ModelDescriptorUtils.cc:79-82: the last position of a slash, `none` for -1. -/
def lastSlash (p : Str) : Option Nat :=
  (List.range p.length).foldl (fun acc i => if p[i]? = some '/' then some i else acc) none

/-- `extractDirName`. ModelDescriptorUtils.cc:67-97. -/
def dirName (p : Str) : Str :=
  if p = [] then []
  else match lastSlash p with
    | none => []
    | some i => p.take (i + 1)

/-- `absolutizeModelFileName`. ModelDescriptorUtils.cc:38-64. -/
def absolutize (desc file : Str) : Str :=
  match file with
  | [] => file
  | c :: _ => if c = '/' then file else if desc = [] then file else dirName desc ++ file

def sThot : Str := "thot".toList
def sTm : Str := "tm".toList
def sLm : Str := "lm".toList
def sCf : Str := "cf".toList
def sDescriptor : Str := "descriptor".toList
def sMain : Str := "main".toList
def sHash : Str := "#".toList

/-- `awk.NF`, `awk.dollar(n)`. -/
def nf (l : Str) : Nat := Awk.getNF ' ' l
def fld (l : Str) (n : Nat) : Str := Awk.dollar ' ' l n

/-- The lines given by `awk.getln()`. -/
def linesOf (f : Str) : List Str := Awk.readAll (f.length + 1) f

/-- The test of the first line. ModelDescriptorUtils.cc:108-110, 141-143. -/
def header (l : Str) : Bool :=
  decide (nf l ≥ 3) && decide (fld l 1 = sThot) && (decide (fld l 2 = sTm) || decide (fld l 2 = sLm) || decide (fld l 2 = sCf)) &&
    decide (fld l 3 = sDescriptor)

/-- `fileIsDescriptor(fileName)`. ModelDescriptorUtils.cc:100-131. -/
def isDescriptor (f : Option Str) : Bool :=
  match f with
  | none => false
  | some t => match linesOf t with
    | [] => false
    | l :: _ => header l

/-- The search of the main file. ModelDescriptorUtils.cc:149-172. -/
def findMain : List Str → Str
  | [] => []
  | l :: ls =>
    if nf l ≥ 3 ∧ fld l 3 = sMain then fld l 2
    else if nf l ≥ 3 ∧ fld l 2 = sMain then fld l 1
    else findMain ls

/-- `fileIsDescriptor(fileName,mainFileName)`: `none` for false. ModelDescriptorUtils.cc:134-198. -/
def mainFile (f : Option Str) : Option Str :=
  match f with
  | none => none
  | some t => match linesOf t with
    | [] => none
    | l :: ls => if header l then some (findMain ls) else none

/-- `ModelDescriptorEntry`. -/
structure Entry where
  init : Str
  file : Str
  status : Str
  abs : Str
deriving DecidableEq

/-- `entryLen`: ModelDescriptorUtils.cc:227-233. -/
def entryLen (l : Str) : Nat :=
  match (List.range' 1 (nf l)).find? fun i => decide (fld l i = sHash) with
  | some i => i - 1
  | none => nf l

/-- `modelInitInfo`: ModelDescriptorUtils.cc:236-241 (`entryLen` is at least 1 here; when it is 1 the loop does nothing). -/
def initInfo (var lib : Str) (l : Str) (n : Nat) : Str :=
  (List.range' 1 (n - 2)).foldl (fun acc i => acc ++ StrProc.expandLibDirIfFound var lib (fld l i) ++ (if i ≠ n - 2 then [' '] else [])) []

/-- The entry of a line, if any. ModelDescriptorUtils.cc:219-251. -/
def entryOf (var lib desc : Str) (l : Str) : Option Entry :=
  if fld l 1 ≠ sHash then
    if nf l ≥ 3 then
      some ⟨initInfo var lib l (entryLen l), fld l (entryLen l - 1), fld l (entryLen l), absolutize desc (fld l (entryLen l - 1))⟩
    else none
  else none

/-- `extractModelEntryInfo`: `none` for THOT_ERROR. ModelDescriptorUtils.cc:201-257. -/
def entries (var lib desc : Str) (f : Option Str) : Option (List Entry) :=
  if isDescriptor f then
    match f with
    | none => none
    | some t => some ((linesOf t).tail.filterMap (entryOf var lib desc))
  else none

/-- `printModelDescriptor`. ModelDescriptorUtils.cc:260-280. -/
def printDesc (es : List Entry) : Str :=
  ("thot tm descriptor".toList ++ ['\n']) ++ es.flatMap fun e => e.init ++ [' '] ++ e.file ++ [' '] ++ e.status ++ ['\n']

end Thot.Desc
