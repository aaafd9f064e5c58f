import Verif.Awk.Model
import Verif.Common.AMap
/-!
Model of `WgHandler` (`src/error_correction/WgHandler.cc`): the word graph file of each sentence. A map is an association list; a file is
its contents.
-/
namespace Thot.WgHandler
open Thot.AMap

abbrev Str := Awk.Str
abbrev M := List (List Str × Str)

/-- WgHandler.cc:56-66: a line of the file, `NF>=3`; the sentence is the fields `1..NF-2`, the path is the last one. -/
def loadLine (m : M) (l : Str) : M :=
  if Awk.getNF ' ' l ≥ 3 then
    put m ((List.range' 1 (Awk.getNF ' ' l - 1 - 1)).map (Awk.dollar ' ' l)) (Awk.dollar ' ' l (Awk.getNF ' ' l))
  else m

/-- WgHandler.cc:54-67: `while(awk.getln())`; the length of the file is enough fuel. -/
def loadLoop : Nat → Str → M → M
  | 0, _, m => m
  | n + 1, inp, m => match Awk.getln inp with
    | none => m
    | some r => loadLoop n r.2 (loadLine m r.1)

/-- WgHandler.cc:37-70 `load` of a file that can be opened: the previous contents are cleared. -/
def load (_ : M) (file : Str) : M := loadLoop (file.length + 1) file []

/-- WgHandler.cc:73-90 `pathAssociatedToSentence`: `none` if not found. -/
def path (m : M) (s : List Str) : Option Str := lk m s

/-- WgHandler.cc:93-102 `size` and `empty`. -/
def size (m : M) : Nat := m.length

/-- WgHandler.cc:125-135 `print`: the entries in the order of the map. -/
def print (m : M) : Str := m.flatMap fun e => e.1.flatMap (· ++ [' ']) ++ ['|', '|', '|', ' '] ++ e.2 ++ ['\n']

end Thot.WgHandler
