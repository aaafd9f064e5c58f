import Verif.EditDist.Spec

/-! Independent notions used to state the properties of the word-level edit distance. -/

namespace Thot.EditDist

/-- Character-level distance between two words (`EditDistForStr::calculateEditDist`, see C30). -/
def charDist (k : Costs) (a b : Str) : Score := (calculateEditDist k a b).getD 0

/-- Character-level distance of a word to an incomplete word (`EditDistForStr::calculateEditDistPrefix`,
see C32). -/
def charPrefDist (k : Costs) (a b : Str) : Score := (strPrefix k a b).getD 0

/-- A word of the prefix typed by the user: a complete word or the beginning of a word. -/
inductive PWord where
  | full (s : Str)
  | part (s : Str)

/-- Its characters. -/
def PWord.str : PWord → Str
  | .full s => s
  | .part s => s

/-- Cost of turning the word `a` into a word of the prefix. -/
def pairC (k : Costs) (a : Str) : PWord → Score
  | .full b => charDist k a b
  | .part b => charPrefDist k a b

/-- `WScript k x y c`: a word-level edit script turns the sentence `x` into `y` with total cost `c`.
Inserting or deleting a word costs as much as inserting or deleting its characters; replacing a word
costs the character-level distance. -/
inductive WScript (k : Costs) : List Str → List PWord → Score → Prop
  | nil : WScript k [] [] 0
  | pair {x y c} (a : Str) (b : PWord) : WScript k x y c → WScript k (a :: x) (b :: y) (pairC k a b + c)
  | ins {x y c} (b : PWord) : WScript k x y c → WScript k x (b :: y) (k.ins * b.str.length + c)
  | del {x y c} (a : Str) : WScript k x y c → WScript k (a :: x) y (k.del * a.length + c)

/-- What the user prefix `y` means: a blank at the end of its last word says that this word is
complete, otherwise it is the beginning of a word. -/
def prefWords (y : List Str) : List PWord :=
  match y.getLast? with
  | Option.none => []
  | some l =>
    if l.getLast? = some ' ' then y.dropLast.map .full ++ [.full l.dropLast]
    else y.dropLast.map .full ++ [.part l]

end Thot.EditDist
