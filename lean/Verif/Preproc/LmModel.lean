import Verif.Preproc.TmModel
/-!
Model of the language model of the recaser and the detokenizer: class `LangModel` of `/repo/utils/smt_preproc/thot_smt_preproc.py`.

An n-gram is the string of its words separated by blanks, as in the code; probabilities are exact.
-/
namespace Thot.Preproc

open Thot
open Thot.SentHandler (joinWords)
open Thot.Awk (fields)
open Thot.Vocab (showNat)
open Thot.AMap (lk put)

/-- `LangModel` (thot_smt_preproc.py:300-305). -/
structure LM where
  n : Nat
  ng : List (Str × Nat)

/-- `increase_ng_count` (thot_smt_preproc.py:338-342). -/
def incNg (ng : List (Str × Nat)) (g : Str) (c : Nat) : List (Str × Nat) :=
  match lk ng g with
  | some k => put ng g (k + c)
  | none => put ng g c

/-- `obtain_ng_count` (thot_smt_preproc.py:345-349). -/
def LM.count (m : LM) (g : Str) : Nat := (lk m.ng g).getD 0

def bosStr : Str := "<bos>".toList
def eosStr : Str := "<eos>".toList

/-- The sentence with the special words (thot_smt_preproc.py:402-406). -/
def auxArr (w : List Str) : List Str := bosStr :: (w ++ [eosStr])

/-- The count of a position (thot_smt_preproc.py:411-423). -/
def countAt (aux : List Str) (i : Nat) (ng : List (Str × Nat)) (j : Nat) : List (Str × Nat) :=
  if i ≠ 1 ∨ j ≠ 0 then incNg ng (joinWords ((aux.drop j).take i)) 1 else ng

/-- `train_word_array` (thot_smt_preproc.py:397-423). -/
def LM.trainArr (m : LM) (w : List Str) : LM :=
  { m with ng := (List.range' 1 m.n).foldl (fun ng i => (List.range (auxArr w).length).foldl (countAt (auxArr w) i) ng) (incNg m.ng [] w.length) }

/-- `train` (thot_smt_preproc.py:605-626), of the words of the lines. -/
def LM.train (n : Nat) (ws : List (List Str)) : LM := ws.foldl LM.trainArr ⟨n, []⟩

/-- `remove_newest_word` (thot_smt_preproc.py:372-380). -/
def removeNewest (g : Str) : Str := joinWords (fields ' ' g).dropLast

/-- `obtain_trgsrc_prob` (thot_smt_preproc.py:352-361); `none` when it divides by zero. -/
def LM.prob (m : LM) (g : Str) : Option Rat :=
  if g = [] then (if m.count [] = 0 then none else some (1 / (m.count [] : Rat)))
  else if m.count (removeNewest g) = 0 then some 0 else some ((m.count g : Rat) / (m.count (removeNewest g) : Rat))

/-- A line of the file (thot_smt_preproc.py:433-454). -/
def LM.loadLine (m : LM) (ln : Str) : LM :=
  { n := if m.n < (fields ' ' ln).length - 1 then (fields ' ' ln).length - 1 else m.n
    ng := if (fields ' ' ln).length = 2
      then incNg (incNg m.ng (joinWords (fields ' ' ln).dropLast) (Vocab.atoiDigits 0 ((fields ' ' ln).getLastD []))) []
        (Vocab.atoiDigits 0 ((fields ' ' ln).getLastD []))
      else incNg m.ng (joinWords (fields ' ' ln).dropLast) (Vocab.atoiDigits 0 ((fields ' ' ln).getLastD [])) }

/-- `load` (thot_smt_preproc.py:426-458). -/
def LM.load (lines : List Str) : LM := lines.foldl LM.loadLine ⟨0, []⟩

/-- `print_model_to_file` (thot_smt_preproc.py:461-464). -/
def LM.print (m : LM) : List Str := (m.ng.filter fun e => e.1 ≠ []).map fun e => e.1 ++ ' ' :: showNat e.2

end Thot.Preproc
