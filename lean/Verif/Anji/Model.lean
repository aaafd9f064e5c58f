import Verif.LexMerge.LexTable
import Verif.Desc.Props
import Verif.Vocab.Props
/-!
Model of the matrix of expected values of the sentence pairs used in incremental training, `sw_models/anjiMatrix.cc`: with a
maximum size `R` it only keeps the values of `R` sentence pairs, and its entries are recycled in circular order.

Values are exact. Indices are natural numbers (32-bit unsigned in the code). An access out of the bounds of a vector is `none`.
`anjm1ip_anjiMatrix.cc` is the same class with one more dimension; it is not modelled.
-/
namespace Thot.Anji

open Thot Thot.LexMerge
open Thot.Vocab (showNat atoi toWordIndex)
open Thot.Desc (linesOf nf fld)

abbrev Str := List Char

/-- `INVALID_ANJI_VAL` (anjiMatrix.h:45). -/
def inval : Rat := 99
/-- `UNRESTRICTED_ANJI_SIZE` (anjiMatrix.h:46): the largest 32-bit number. -/
def unres : Nat := 4294967295

/-- The members of `anjiMatrix` (anjiMatrix.h:116-128). -/
structure Mat where
  maxn : Nat
  ptr : Nat
  anji : List (List (List Rat))
  np2n : List (Bool × Nat)
  n2np : List (Bool × Nat)
  deriving DecidableEq

/-- The constructor (anjiMatrix.cc:46-50). -/
def Mat.new : Mat := ⟨unres, 0, [], [], []⟩

/-- `read_np_to_n_vector`, `read_n_to_np_vector` (anjiMatrix.cc:503-520). -/
def readVec (v : List (Bool × Nat)) (i : Nat) : Bool × Nat := if i < v.length then v.getD i (false, 0) else (false, 0)

/-- `update_np_to_n_vector`, `update_n_to_np_vector` (anjiMatrix.cc:523-546). -/
def updVec (v : List (Bool × Nat)) (i : Nat) (x : Bool × Nat) : List (Bool × Nat) := (grow v i (false, 0)).set i x

/-- `n_is_mapped_in_matrix` (anjiMatrix.cc:433-454). -/
def Mat.mapped (m : Mat) (n : Nat) : Option Nat :=
  if m.maxn = unres then if n < m.anji.length then some n else none
  else if (readVec m.n2np n).1 then some (readVec m.n2np n).2 else none

/-- Assigning an entry to a sentence pair that has none (anjiMatrix.cc:472-498); `none` if the vector has no such entry. -/
def Mat.assign (m : Mat) (n : Nat) : Option (Nat × Mat) :=
  if (readVec m.np2n m.ptr).1 then
    if m.ptr < m.anji.length then
      some (m.ptr, { m with
        ptr := if m.ptr + 1 ≥ m.maxn then 0 else m.ptr + 1
        anji := m.anji.set m.ptr []
        np2n := updVec m.np2n m.ptr (true, n)
        n2np := updVec (updVec m.n2np (readVec m.np2n m.ptr).2 (false, 0)) n (true, m.ptr) })
    else none
  else
    some (m.ptr, { m with
      ptr := if m.ptr + 1 ≥ m.maxn then 0 else m.ptr + 1
      np2n := updVec m.np2n m.ptr (true, n)
      n2np := updVec m.n2np n (true, m.ptr) })

/-- `map_n_in_matrix` (anjiMatrix.cc:457-500). -/
def Mat.mapN (m : Mat) (n : Nat) : Option (Nat × Mat) :=
  if m.maxn = unres then some (n, m)
  else
    match m.mapped n with
    | some np => some (np, m)
    | none => m.assign n

/-- `resizeIsRequired` (anjiMatrix.cc:82-96). -/
def Mat.resizeReq (m : Mat) (np nslen tlen : Nat) : Bool :=
  if m.anji.length ≤ np then true
  else if (m.anji.getD np []).length ≤ tlen then true
  else if ((m.anji.getD np []).getD 0 []).length ≤ nslen then true
  else false

/-- Room for the values of a sentence pair (anjiMatrix.cc:62-76). -/
def Mat.room (m : Mat) (np nslen tlen : Nat) : Mat :=
  let m1 := if m.anji.length ≤ np then { m with anji := grow m.anji np [] } else m
  if m1.resizeReq np nslen tlen then
    { m1 with anji := m1.anji.set np (List.replicate (tlen + 1) (List.replicate (nslen + 1) inval)) }
  else m1

/-- `init_nth_entry` (anjiMatrix.cc:53-79): the entry; it is not set if the maximum size is 0 (an error is returned). -/
def Mat.initEntry (m : Mat) (n nslen tlen : Nat) : Option (Option Nat × Mat) :=
  if m.maxn > 0 then (m.mapN n).map fun p => (some p.1, p.2.room p.1 nslen tlen)
  else some (none, m)

/-- `set_fast` (anjiMatrix.cc:355-362). -/
def Mat.setFast (m : Mat) (np j i : Nat) (f : Rat) : Option Mat :=
  if m.maxn > 0 then
    if np < m.anji.length ∧ j < (m.anji.getD np []).length ∧ i < ((m.anji.getD np []).getD j []).length then
      some { m with anji := m.anji.set np ((m.anji.getD np []).set j (((m.anji.getD np []).getD j []).set i f)) }
    else none
  else some m

/-- What `calc_anji` does with a value (IncrIbm1AligModel.cc:204-247): `init_nth_entry` for the sentence pair and `set_fast` with
the entry returned. -/
def Mat.store (m : Mat) (n nslen tlen j i : Nat) (f : Rat) : Option Mat :=
  match m.initEntry n nslen tlen with
  | none => none
  | some (np, m1) => m1.setFast (np.getD 0) j i f

/-- `get` (anjiMatrix.cc:365-381). -/
def Mat.get (m : Mat) (n j i : Nat) : Rat :=
  match m.mapped n with
  | none => inval
  | some np =>
    if m.anji.length ≤ np then inval
    else if (m.anji.getD np []).length ≤ j then inval
    else if ((m.anji.getD np []).getD j []).length ≤ i then inval
    else ((m.anji.getD np []).getD j []).getD i inval

/-- `get_invp` (anjiMatrix.cc:396-403). -/
def Mat.getInvp (m : Mat) (n j i : Nat) : Rat := if m.get n j i = inval then 0 else m.get n j i

/-- `reset_entries` (anjiMatrix.cc:99-115). -/
def Mat.reset (m : Mat) : Mat :=
  if m.maxn > 0 then { m with anji := m.anji.map fun e => e.map fun r => r.map fun _ => inval } else m

/-- `clear` (anjiMatrix.cc:549-555). -/
def Mat.clear (m : Mat) : Mat := { m with ptr := 0, anji := [], np2n := [], n2np := [] }

/-- `set_maxnsize` (anjiMatrix.cc:118-122). -/
def Mat.setMax (m : Mat) (k : Nat) : Mat := { m.clear with maxn := k }

/-! ### Files -/

/-- A record of the file of values (anjiMatrix.cc:276-279). -/
structure VRec where
  n : Nat
  j : Nat
  i : Nat
  f : Rat

/-- The vectors grown up to a position, and the value set (anjiMatrix.cc:333-351). -/
def put3 (a : List (List (List Rat))) (np j i : Nat) (f : Rat) : List (List (List Rat)) :=
  (grow a np []).set np ((grow ((grow a np []).getD np []) j []).set j
    ((grow ((grow ((grow a np []).getD np []) j []).getD j []) i inval).set i f))

/-- `set` (anjiMatrix.cc:322-352). -/
def Mat.set (m : Mat) (n j i : Nat) (f : Rat) : Option Mat :=
  if m.maxn > 0 then (m.mapN n).map fun p => { p.2 with anji := put3 p.2.anji p.1 j i f }
  else some m

/-- `print_anji_values` (anjiMatrix.cc:256-285). -/
def Mat.recs (m : Mat) : List VRec :=
  (List.range m.anji.length).flatMap fun n =>
    (List.range (m.anji.getD n []).length).flatMap fun j =>
      (List.range ((m.anji.getD n []).getD j []).length).map fun i =>
        ⟨n, j, i, ((m.anji.getD n []).getD j []).getD i inval⟩

/-- `print_maxnsize_data` (anjiMatrix.cc:288-319). -/
def Mat.msinfo (m : Mat) : Str :=
  (showNat m.maxn ++ ['\n']) ++ (showNat m.ptr ++ ['\n']) ++
  (List.range m.np2n.length).flatMap fun np =>
    if (m.np2n.getD np (false, 0)).1 then (showNat np ++ ' ' :: showNat (m.np2n.getD np (false, 0)).2) ++ ['\n'] else []

/-- The files with a given prefix, `.anji` and `.msinfo`. -/
structure Files where
  vals : Option (List VRec)
  ms : Option Str

/-- `print` (anjiMatrix.cc:236-253): the second file is only written if the size is restricted. -/
def Mat.print (m : Mat) (fs : Files) : Files := ⟨some m.recs, if m.maxn ≠ unres then some m.msinfo else fs.ms⟩

/-- `atoi` converted to `unsigned int`. -/
def num (s : Str) : Option Nat := (atoi s).map toWordIndex

/-- A line of the mapping (anjiMatrix.cc:222-229). -/
def Mat.mapLine (m : Mat) (l : Str) : Option Mat :=
  if nf l = 2 then
    match num (fld l 1), num (fld l 2) with
    | some np, some n => some { m with np2n := updVec m.np2n np (true, n), n2np := updVec m.n2np n (true, np) }
    | _, _ => none
  else some m

/-- The lines of the mapping. -/
def Mat.mapLines (m : Mat) : List Str → Option Mat
  | [] => some m
  | l :: ls =>
    match m.mapLine l with
    | some m1 => m1.mapLines ls
    | none => none

/-- `load_maxnsize_data` for an existing file (anjiMatrix.cc:215-232). If there are less than two lines the fields of the last
line read are used again; such files are not modelled (`none`). -/
def Mat.loadMs (m : Mat) (f : Str) : Option Mat :=
  match linesOf f with
  | l1 :: l2 :: ls =>
    match num (fld l1 1), num (fld l2 1) with
    | some k, some p => Mat.mapLines { m with maxn := k, ptr := p } ls
    | _, _ => none
  | _ => none

/-- The loop of `load_anji_values` (anjiMatrix.cc:184-199). -/
def Mat.loadVals (m : Mat) : List VRec → Option Mat
  | [] => some m
  | r :: l =>
    match m.set r.n r.j r.i r.f with
    | some m1 => m1.loadVals l
    | none => none

/-- `load` (anjiMatrix.cc:147-168): whether there was an error, and the matrix. -/
def Mat.load (m : Mat) (fs : Files) : Option (Bool × Mat) :=
  match fs.vals with
  | none => some (true, m.clear)
  | some l =>
    match m.clear.loadVals l with
    | none => none
    | some m1 =>
      match fs.ms with
      | none => some (false, { m1 with maxn := unres })
      | some f => (m1.loadMs f).map fun m2 => (false, m2)

end Thot.Anji
