import Verif.PhrTools.Merge
/-!
Model of the scripts that rearrange phrase tables: `/repo/utils/phrase_models/thot_flip_phr.sh`, `thot_sort_ttable.sh` and
`thot_get_nbest_for_trg.sh`.

A file is the list of its lines; the fields of a line are its words separated by blanks. `num` is the value of a text as a number (exact).
-/
namespace Thot.PhrTools

open Thot
open Thot.SentHandler (joinWords)
open Thot.Awk (fields)
open Thot.Vocab (showNat)

/-- The loop over the fields shared by thot_flip_phr.sh:24-49 and thot_sort_ttable.sh:20-46: the words of the first phrase, those of the
second one, and `last_i` if it is assigned. The last field is not visited. (The texts built word by word are written by the callers.) -/
def scan : Nat → Bool → List Str → List Str × List Str × Option Nat
  | i, ct, w :: v :: r =>
    if w ≠ sep then
      if ct then (w :: (scan (i + 1) ct (v :: r)).1, (scan (i + 1) ct (v :: r)).2)
      else ((scan (i + 1) ct (v :: r)).1, w :: (scan (i + 1) ct (v :: r)).2.1, (scan (i + 1) ct (v :: r)).2.2)
    else if ct then scan (i + 1) false (v :: r)
    else ([], [], some (i + 1))
  | _, _, _ => ([], [], none)

/-- `$i`. -/
def dollarOf (ln : Str) (i : Nat) : Str := if i = 0 then ln else (fields ' ' ln).getD (i - 1) []

/-- A line of `thot_flip_phr` (thot_flip_phr.sh:17-54); `last` is the value of `last_i` left by the previous line. -/
def flipLine (last : Nat) (ln : Str) : Nat × Str :=
  let q := scan 1 true (fields ' ' ln)
  let li := q.2.2.getD last
  (li, joinWords q.2.1 ++ " |||".toList ++ (q.1.flatMap fun w => ' ' :: w) ++ " |||".toList ++
    (List.range' li ((fields ' ' ln).length + 1 - li)).flatMap fun i => ' ' :: dollarOf ln i)

/-- `thot_flip_phr`. -/
def flipFile : Nat → List Str → List Str
  | _, [] => []
  | last, ln :: r => (flipLine last ln).2 :: flipFile (flipLine last ln).1 r

/-- `%03d`. -/
def d3 (n : Nat) : Str := List.replicate (3 - (showNat n).length) '0' ++ showNat n

/-- `k` decimal digits. -/
def pad : Nat → Nat → Str
  | 0, _ => []
  | k + 1, n => Vocab.digit (n / 10 ^ k) :: pad k (n % 10 ^ k)

/-- The number of units of the last decimal printed by `%.20f` (rounded). -/
def units (x : Rat) : Nat := (x * 10 ^ 20 + 1 / 2).floor.toNat

/-- `%.20f` of a number that is not negative. -/
def fix20 (x : Rat) : Str := showNat (units x / 10 ^ 20) ++ '.' :: pad 20 (units x % 10 ^ 20)

section
variable (num : Str → Rat)

/-- A line of `put_st_lengths` (thot_sort_ttable.sh:7-52); `none` is the fatal division by a zero count. -/
def putLine (ln : Str) : Option Str :=
  let f := fields ' ' ln
  let q := scan 1 true f
  if num (fromEnd f 0) = 0 then none
  else some (d3 q.1.length ++ ' ' :: joinWords q.1 ++ " |||".toList ++ ' ' :: fix20 (1 / num (fromEnd f 0)) ++ ' ' :: d3 q.2.1.length ++
    ' ' :: joinWords q.2.1 ++ " ||| ".toList ++ fromEnd f 1 ++ ' ' :: fromEnd f 0)

/-- The loop of `remove_st_lengths` after the first separator (thot_sort_ttable.sh:70-74). The text printed, without the new line (lines
for which none is printed are not modelled). -/
def rmRest : List Str → Str
  | [] => []
  | [w] => w
  | w :: v :: r => w ++ ' ' :: rmRest (v :: r)

/-- The loop of `remove_st_lengths` from a field (thot_sort_ttable.sh:62-75). -/
def rmLoop : List Str → Str
  | [] => []
  | w :: r => if w = sep then "||| ".toList ++ rmRest (r.drop 2) else if r = [] then w else w ++ ' ' :: rmLoop r

/-- A line of `remove_st_lengths` (thot_sort_ttable.sh:55-77). -/
def rmLine (ln : Str) : Str := rmLoop (fields ' ' ln).tail

/-- The lines `put_st_lengths` writes. -/
def putFile (lines : List Str) : Option (List Str) := lines.mapM (putLine num)

/-- The lines `thot_sort_ttable` writes when `sort` gives `sorted`. -/
def rmFile (sorted : List Str) : List Str := sorted.map rmLine

/-- The comparison `trgToProcess==strn` (thot_get_nbest_for_trg.sh:39): a phrase of one word is a field, and two fields that look like
numbers are compared as numbers (`look` is the value of a text that looks like a number). -/
def sameKey (look : Str → Option Rat) (a b : List Str) : Bool :=
  match a, b with
  | [x], [y] =>
    match look x, look y with
    | some u, some v => decide (u = v)
    | _, _ => decide (x = y)
  | _, _ => decide (joinWords a = joinWords b)

/-- The variables of `filter_nbest`. -/
structure NState where
  cnt : Nat
  cur : List Str
  strn : List Str
  rem : Rat

/-- `if(count_option<=n) print $0; else remainder+=$NF` (thot_get_nbest_for_trg.sh:33-34, :44-45, :56-57). -/
def keepOpt (n : Rat) (c : Nat) (ln : Str) (rem : Rat) : List Str × Rat :=
  if (c : Rat) ≤ n then ([ln], rem) else ([], rem + num (fromEnd (fields ' ' ln) 0))

/-- The line with the remainder (thot_get_nbest_for_trg.sh:50-51). -/
def remLine (fmt : Rat → Str) (p : Bool) (cur : List Str) (rem : Rat) : List Str :=
  if p = true ∧ rem > 0 then [joinWords cur ++ " ||| <UNUSED_WORD> ||| 0 ".toList ++ fmt rem] else []

/-- `strn` (thot_get_nbest_for_trg.sh:20-26): without words before the separator it keeps its value. -/
def keyOf (old : List Str) (ln : Str) : List Str :=
  let ws := (fields ' ' ln).takeWhile fun w => decide (w ≠ sep)
  if ws = [] then old else ws

/-- `filter_nbest` (thot_get_nbest_for_trg.sh:15-60). -/
def nbLoop (fmt : Rat → Str) (look : Str → Option Rat) (n : Rat) (p : Bool) : NState → List Str → List Str
  | _, [] => []
  | st, ln :: r =>
    if st.cnt = 0 then
      (keepOpt num n 1 ln st.rem).1 ++
        nbLoop fmt look n p { cnt := 1, cur := keyOf st.strn ln, strn := keyOf st.strn ln, rem := (keepOpt num n 1 ln st.rem).2 } r
    else if sameKey look st.cur (keyOf st.strn ln) then
      (keepOpt num n (st.cnt + 1) ln st.rem).1 ++
        nbLoop fmt look n p { st with cnt := st.cnt + 1, strn := keyOf st.strn ln, rem := (keepOpt num n (st.cnt + 1) ln st.rem).2 } r
    else
      remLine fmt p st.cur st.rem ++ (keepOpt num n 1 ln 0).1 ++
        nbLoop fmt look n p { cnt := 1, cur := keyOf st.strn ln, strn := keyOf st.strn ln, rem := (keepOpt num n 1 ln 0).2 } r

/-- The rest of `thot_get_nbest_for_trg` (thot_get_nbest_for_trg.sh:115-116) when `sort` gives `sorted`. -/
def nbestOut (fmt : Rat → Str) (look : Str → Option Rat) (n : Rat) (p : Bool) (sorted : List Str) : List Str :=
  flipFile 0 (nbLoop num fmt look n p { cnt := 0, cur := [], strn := [], rem := 0 } (rmFile sorted))

end
end Thot.PhrTools
