import Verif.Cat.Props
/-!
Model of an interactive session with rejections: `/repo/src/stack_dec/ThotImtSession.cc`.

The calls of the decoder (`startCat`, `setPref`) are those of `Verif.Cat`. The set of rejected words is a list without repetitions (the order
of the elements of the `std::set` is not used). `setPartialValidation` (a stub that copies its arguments) is not modelled.
-/
namespace Thot.ImtSes

open Thot.StrProc
open Thot.Cat (Sys St)

/-- A set of pairs of accepted prefix and rejected suffix (RejectedWordsSet.h:33). -/
abbrev Rej := List (Str × Str)

/-- `rejectedWords.insert(x)`. -/
def insertRej (x : Str × Str) (l : Rej) : Rej := if x ∈ l then l else x :: l

/-- The members `prevPrefStr` and `rejectedWords`, and the state of the decoder for the user. -/
structure Ses (Wg PS : Type) where
  cat : St Wg PS
  prev : List Str
  rej : Rej

/-- The calls of a client. -/
inductive Call where
  | setPrefix (pre suf : List Str) (part : Bool)
  | reject (pre suf : List Str) (part : Bool)

/-- The prefix of a call. -/
def Call.pre : Call → List Str
  | .setPrefix p _ _ => p
  | .reject p _ _ => p

/-- The flag `last_token_is_partial` of a call. -/
def Call.part : Call → Bool
  | .setPrefix _ _ b => b
  | .reject _ _ b => b

/-- `prefixStr` (ThotImtSession.cc:168-173). -/
def text (pre : List Str) (part : Bool) : Str := if part then stringVectorToString pre else stringVectorToString pre ++ [' ']

section
variable {Wg PS : Type} (S : Sys Wg Rej PS)

/-- `setPrefixAux` (ThotImtSession.cc:161-179). -/
def setPrefixAux (cat : St Wg PS) (pre : List Str) (part : Bool) (rej : Rej) : Option (List Str × St Wg PS) :=
  (Cat.setPref S cat (text pre part) rej).map fun r => (stringToStringVector r.1, r.2)

/-- The constructor (ThotImtSession.cc:32-41). -/
def start (cat : St Wg PS) (source : List Str) : Ses Wg PS :=
  { cat := (Cat.startCat S cat (stringVectorToString source)).2, prev := [], rej := [] }

/-- `if(prevPrefStr!=prefix) rejectedWords.clear()` (ThotImtSession.cc:94-99, :129-134). -/
def revise (ses : Ses Wg PS) (pre : List Str) : Rej := if ses.prev ≠ pre then [] else ses.rej

/-- The set after rejecting the end of an incomplete word (ThotImtSession.cc:101-107). -/
def rejectPart (rej : Rej) (pre suf : List Str) : Rej := insertRej (pre.getLast?.getD [], suf.head?.getD []) rej

/-- The set after rejecting a word (ThotImtSession.cc:136-144). -/
def rejectWord (rej : Rej) (suf : List Str) : Rej :=
  match suf with
  | [] => rej
  | w :: _ => if w ≠ [] then insertRej ([], w) rej else rej

/-- `setPrefix` (ThotImtSession.cc:67-82) and `rejectSuffix` (ThotImtSession.cc:85-158). -/
def call (ses : Ses Wg PS) : Call → Option (List Str × Ses Wg PS)
  | .setPrefix pre _ part => (setPrefixAux S ses.cat pre part []).map fun r => (r.1, { cat := r.2, prev := pre, rej := [] })
  | .reject pre suf part =>
    if part then
      (setPrefixAux S ses.cat pre.dropLast part (rejectPart (revise ses pre) pre suf)).map fun r =>
        (r.1, { cat := r.2, prev := pre, rej := rejectPart (revise ses pre) pre suf })
    else
      (setPrefixAux S ses.cat pre part (rejectWord (revise ses pre) suf)).map fun r =>
        (r.1, { cat := r.2, prev := pre, rej := rejectWord (revise ses pre) suf })

/-- A sequence of calls. -/
def runCalls : Ses Wg PS → List Call → Option (Ses Wg PS)
  | ses, [] => some ses
  | ses, c :: r => (call S ses c).bind fun x => runCalls x.2 r

end
end Thot.ImtSes
