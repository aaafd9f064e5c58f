import Verif.SentHandler.Props
import Verif.Vocab.Props
import Verif.AligFile.Giza
import Verif.PhrTools.Runs
import Verif.Common.AMap
import Verif.Common.Sum
/-!
Model of the translation model of the recaser and the detokenizer: class `TransModel` of `/repo/utils/smt_preproc/thot_smt_preproc.py`.

A dictionary is an association list in the order of insertion (the order of iteration of Python 3). Probabilities are exact. The fields of a
line are its words separated by blanks (`split()` also splits at other white space; words have none).
-/
namespace Thot.Preproc

open Thot
open Thot.SentHandler (joinWords Word fields_join)
open Thot.Awk (fields)
open Thot.Vocab (showNat)
open Thot.AMap (lk put)

abbrev Str := List Char

/-- `TransModel` (thot_smt_preproc.py:45-48). -/
structure TM where
  st : List (Str × List (Str × Nat))
  s : List (Str × Nat)

def TM.empty : TM := ⟨[], []⟩

/-- `increase_count` (thot_smt_preproc.py:56-67). -/
def TM.increase (m : TM) (s t : Str) (c : Nat) : TM :=
  match lk m.st s with
  | some opts =>
    match lk opts t with
    | some k => { st := put m.st s (put opts t (k + c)), s := put m.s s ((lk m.s s).getD 0 + c) }
    | none => { st := put m.st s (put opts t 1), s := put m.s s ((lk m.s s).getD 0 + c) }
  | none => { st := put m.st s [(t, c)], s := put m.s s c }

/-- `obtain_opts_for_src` (thot_smt_preproc.py:70-77). -/
def TM.opts (m : TM) (s : Str) : List Str :=
  match lk m.st s with
  | some os => os.map Prod.fst
  | none => []

/-- `obtain_srctrg_count` (thot_smt_preproc.py:80-87). -/
def TM.count (m : TM) (s t : Str) : Nat :=
  match lk m.st s with
  | some os => (lk os t).getD 0
  | none => 0

/-- `obtain_src_count` (thot_smt_preproc.py:109-113). -/
def TM.srcCount (m : TM) (s : Str) : Nat := (lk m.s s).getD 0

/-- `obtain_trgsrc_prob` (thot_smt_preproc.py:90-96). -/
def TM.prob (m : TM) (s t : Str) : Rat := if m.srcCount s = 0 then 0 else (m.count s t : Rat) / (m.srcCount s : Rat)

/-- `obtain_trgsrc_prob_smoothed` (thot_smt_preproc.py:99-105). -/
def TM.probSmoothed (m : TM) (s t : Str) : Rat :=
  if m.srcCount s = 0 then 1 / 1000000 else (1 - 1 / 1000000) * ((m.count s t : Rat) / (m.srcCount s : Rat))

/-- A list of calls to `increase_count`. -/
def TM.run (m : TM) (h : List (Str × Str × Nat)) : TM := h.foldl (fun m e => m.increase e.1 e.2.1 e.2.2) m

/-- The separator. -/
def bar : Str := ['|', '|', '|']

/-- The variables of the loop over the words of a line (thot_smt_preproc.py:121-137). -/
structure LSt where
  src : Bool
  srcw : Str
  trgw : Str
  prev : Str

/-- The loop over the words of a line (thot_smt_preproc.py:124-137); `first` tells `i==0`. -/
def lineStep (first : Bool) (l : LSt) (w : Str) : LSt :=
  if l.src then
    if w = bar then { l with src := false, prev := w }
    else if first then { l with srcw := w, prev := w }
    else { l with srcw := l.srcw ++ ' ' :: w, prev := w }
  else if l.prev = bar then { l with trgw := w, prev := w }
  else { l with trgw := l.trgw ++ ' ' :: w, prev := w }

/-- The words of a line but the last (thot_smt_preproc.py:118-137). -/
def parseWords : List Str → LSt
  | [] => ⟨true, [], [], []⟩
  | w :: ws => ws.foldl (lineStep false) (lineStep true ⟨true, [], [], []⟩ w)

/-- A line of the file (thot_smt_preproc.py:117-142); the last word is a number. -/
def loadLine (m : TM) (ln : Str) : TM :=
  m.increase (parseWords (fields ' ' ln).dropLast).srcw (parseWords (fields ' ' ln).dropLast).trgw (Vocab.atoiDigits 0 ((fields ' ' ln).getLastD []))

/-- `load` (thot_smt_preproc.py:115-142). -/
def TM.load (lines : List Str) : TM := lines.foldl loadLine TM.empty

/-- `print_model_to_file` (thot_smt_preproc.py:145-148). -/
def TM.print (m : TM) : List Str :=
  m.st.flatMap fun e => e.2.map fun o => e.1 ++ " ||| ".toList ++ o.1 ++ ' ' :: showNat o.2

end Thot.Preproc
