import Verif.Trie.Model
/-!
Model of `WordPredictor` (src/incr_models/WordPredictor.{h,cc}) over the model of `Trie<char,Count>`.
Counts are natural numbers (`Count` wraps a float and is only incremented by one and compared here; floats are exact up to
2^24). Loading from files is covered by the `AwkInputStream` model and is not repeated here.
-/
namespace Thot.WordPred
open Trie

abbrev Word := List Char
abbrev Sentence := List Word

/-- WordPredictor.h:86-88. -/
structure WP where
  trie : T Char Nat
  retain : Nat
  pending : List Sentence
  deriving DecidableEq

/-- WordPredictor.cc:33-36, with `numSentsToRetain` as set by `loadFileWithAdditionalInfo` (85-120). -/
def new (retain : Nat := 1) : WP := ⟨Trie.new 0, retain, []⟩

/-- WordPredictor.cc:147-160: one word of `addSentenceAux`. -/
def addWord (t : T Char Nat) (w : Word) : T Char Nat :=
  match find t w with
  | none => insert 0 1 t w
  | some _ => modify (· + 1) t w

/-- WordPredictor.cc:138-162 `addSentenceAux`. -/
def addSentenceAux (t : T Char Nat) (s : Sentence) : T Char Nat := s.foldl addWord t

/-- WordPredictor.cc:123-135 `addSentence`. -/
def addSentence (p : WP) (s : Sentence) : WP :=
  if p.retain > 0 then
    let pend := p.pending ++ [s]
    if pend.length = p.retain then { p with trie := pend.foldl addSentenceAux p.trie, pending := [] }
    else { p with pending := pend }
  else p

/-- `out[count]=suff` on a `std::map<Count,std::string,std::greater<Count>>`: sorted by decreasing count, one entry per
count. -/
def putDesc (c : Nat) (s : Word) : List (Nat × Word) → List (Nat × Word)
  | [] => [(c, s)]
  | e :: r => if c > e.1 then (c, s) :: e :: r else if c = e.1 then (c, s) :: r else e :: putDesc c s r

/-- WordPredictor.cc:179-197: the loop of `getSuffixList` over the iterated entries. -/
def suffLoop (input : Word) : List (Word × Nat) → List (Nat × Word) → List (Nat × Word)
  | [], out => out
  | (ks, c) :: r, out =>
    if c > 0 then
      if input ≠ [] ∧ ks.head? ≠ input.getLast? then out
      else suffLoop input r (putDesc c ks.tail out)
    else suffLoop input r out

/-- WordPredictor.cc:165-199 `getSuffixList`. -/
def getSuffixList (p : WP) (input : Word) : List (Nat × Word) :=
  let st := getState p.trie input
  if isNil st then [] else suffLoop input (collect (size st) (begin st)) []

/-- WordPredictor.cc:202-217 `getBestSuffix`. -/
def getBestSuffix (p : WP) (input : Word) : Nat × Word := ((getSuffixList p input).head?).getD (0, [])

/-- WordPredictor.cc:220-225 `clear`. -/
def clear (p : WP) : WP := ⟨Trie.clear p.trie, 1, []⟩

inductive Op where
  | add (s : Sentence)
  | clear

def step (p : WP) : Op → WP
  | .add s => addSentence p s
  | .clear => clear p

def run (p : WP) (os : List Op) : WP := os.foldl step p

end Thot.WordPred
