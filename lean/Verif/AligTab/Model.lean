import Verif.LexMerge.LexTable
/-!
Model of the tables of alignment counts, `sw_models/IncrHmmAligTable.cc` and `sw_models/IncrIbm2AligTable.cc`, of their binary
files, byte by byte, and of the tools that sort such files and extract filtering information: `thot_sort_bin_ilextable.cc`,
`thot_sort_bin_iibm2atable.cc`, `thot_sort_bin_ihmmatable.cc`, `thot_gen_bin_lex_filter_info.cc`.

`PositionIndex` and `WordIndex` are 32-bit unsigned (SwDefs.h, StatModelDefs.h). A `float` is its 32-bit pattern: the tables
only copy them. The machine is little endian. The text format (`THOT_ENABLE_LOAD_PRINT_TEXTPARS`) is not modelled.
-/
namespace Thot.AligTab

open Thot Thot.LexMerge

/-- The four bytes of a 32-bit value, as `write((char*)&x,4)` writes them. -/
def enc (n : UInt32) : List Nat :=
  [n.toNat % 256, n.toNat / 256 % 256, n.toNat / 65536 % 256, n.toNat / 16777216 % 256]

/-- The value with the given four bytes. -/
def dec : List Nat → UInt32
  | [a, b, c, d] => UInt32.ofNat (a + 256 * b + 65536 * c + 16777216 * d)
  | _ => 0

/-- A record of a binary table: the fields of its key, numerator and denominator (`Entry`, thot_sort_bin_ilextable.cc:48-54,
thot_sort_bin_ihmmatable.cc:46-52, thot_sort_bin_iibm2atable.cc:48-54). -/
structure FRec where
  key : List UInt32
  num : UInt32
  den : UInt32
  deriving DecidableEq

/-- The bytes of a record (IncrHmmAligTable.cc:244-252, IncrIbm2AligTable.cc:259-265, thot_sort_bin_ilextable.cc). -/
def encRec (r : FRec) : List Nat := r.key.flatMap enc ++ enc r.num ++ enc r.den

def encRecs (l : List FRec) : List Nat := l.flatMap encRec

/-- The `i`-th 32-bit value of a sequence of bytes. -/
def field (b : List Nat) (i : Nat) : UInt32 := dec ((b.drop (4 * i)).take 4)

/-- The loop that reads the records of a file with keys of `k` fields (IncrHmmAligTable.cc:186-204,
IncrIbm2AligTable.cc:175-196, thot_sort_bin_ihmmatable.cc:95-112): the loop ends when the first field of a record cannot be read;
`none` when another one cannot, because the record that is used then has uninitialised members. The first argument bounds the
number of iterations. -/
def readRecs (k : Nat) : Nat → List Nat → Option (List FRec)
  | 0, _ => some []
  | n + 1, b =>
    if b.length < 4 then some []
    else if b.length < 4 * (k + 2) then none
    else (readRecs k n (b.drop (4 * (k + 2)))).map fun l =>
      ⟨(List.range k).map (field b), field b k, field b (k + 1)⟩ :: l

/-- Reading a whole file. -/
def readFile (k : Nat) (b : List Nat) : Option (List FRec) := readRecs k (b.length + 1) b

/-! ### The table of the HMM alignment model -/

/-- `aSourceHmm` (aSourceHmm.h:38-42). -/
structure HKey where
  prev : UInt32
  slen : UInt32
  deriving DecidableEq

/-- The members of `IncrHmmAligTable` (IncrHmmAligTable.h:92-97). -/
structure Hmm where
  numer : List (List (List (Bool × UInt32)))
  denom : List (List (Bool × UInt32))

def Hmm.empty : Hmm := ⟨[], []⟩

/-- The vector of the previous position, grown and with a position set (IncrHmmAligTable.cc:48-52, 91-95). -/
def setRow (e : List (List (Bool × UInt32))) (k : HKey) (f : UInt32) : List (List (Bool × UInt32)) :=
  (grow e k.prev.toNat []).set k.prev.toNat
    ((grow ((grow e k.prev.toNat []).getD k.prev.toNat []) k.slen.toNat (false, 0)).set k.slen.toNat (true, f))

/-- `setAligNumer` (IncrHmmAligTable.cc:37-53). -/
def Hmm.setNumer (x : Hmm) (k : HKey) (i f : UInt32) : Hmm :=
  { x with numer := (grow x.numer i.toNat []).set i.toNat (setRow ((grow x.numer i.toNat []).getD i.toNat []) k f) }

/-- `getAligNumer` (IncrHmmAligTable.cc:56-87): `found` and the result. -/
def Hmm.getNumer (x : Hmm) (k : HKey) (i : UInt32) : Bool × UInt32 :=
  if i.toNat ≥ x.numer.length then (false, 0)
  else if (x.numer.getD i.toNat []).length > k.prev.toNat then
    if ((x.numer.getD i.toNat []).getD k.prev.toNat []).length > k.slen.toNat then
      ((x.numer.getD i.toNat []).getD k.prev.toNat []).getD k.slen.toNat (false, 0)
    else (false, 0)
  else (false, 0)

/-- `setAligDenom` (IncrHmmAligTable.cc:90-99). -/
def Hmm.setDenom (x : Hmm) (k : HKey) (f : UInt32) : Hmm := { x with denom := setRow x.denom k f }

/-- `getAligDenom` (IncrHmmAligTable.cc:102-122). -/
def Hmm.getDenom (x : Hmm) (k : HKey) : Bool × UInt32 :=
  if x.denom.length > k.prev.toNat then
    if (x.denom.getD k.prev.toNat []).length > k.slen.toNat then (x.denom.getD k.prev.toNat []).getD k.slen.toNat (false, 0)
    else (false, 0)
  else (false, 0)

/-- `setAligNumDen` (IncrHmmAligTable.cc:125-132). -/
def Hmm.setNumDen (x : Hmm) (k : HKey) (i n d : UInt32) : Hmm := (x.setNumer k i n).setDenom k d

/-- Setting the record read from a file (IncrHmmAligTable.cc:195-201): prev_i, slen, i. -/
def Hmm.setRec (x : Hmm) (r : FRec) : Hmm :=
  x.setNumDen ⟨r.key.getD 0 0, r.key.getD 1 0⟩ (r.key.getD 2 0) r.num r.den

/-- `loadBin` (IncrHmmAligTable.cc:172-206): the table is cleared first; the result is whether there was an error, and the
table; `none` when a record has uninitialised members. No file: `none` as argument. -/
def Hmm.load (file : Option (List Nat)) : Option (Bool × Hmm) :=
  match file with
  | none => some (true, Hmm.empty)
  | some b => (readFile 3 b).map fun l => (false, l.foldl Hmm.setRec Hmm.empty)

/-- The records of `printBin` (IncrHmmAligTable.cc:229-256). -/
def Hmm.recs (x : Hmm) : List FRec :=
  (List.range x.numer.length).flatMap fun i =>
    (List.range (x.numer.getD i []).length).flatMap fun p =>
      (List.range ((x.numer.getD i []).getD p []).length).flatMap fun s =>
        if (((x.numer.getD i []).getD p []).getD s (false, 0)).1 then
          [⟨[UInt32.ofNat p, UInt32.ofNat s, UInt32.ofNat i], (((x.numer.getD i []).getD p []).getD s (false, 0)).2,
            (x.getDenom ⟨UInt32.ofNat p, UInt32.ofNat s⟩).2⟩]
        else []

/-- The 32-bit counters of the loops reach the sizes of the vectors. -/
def Hmm.fits (x : Hmm) : Bool :=
  decide (x.numer.length < 2 ^ 32) && x.numer.all fun e => decide (e.length < 2 ^ 32) && e.all fun v => decide (v.length < 2 ^ 32)

/-- `printBin` (IncrHmmAligTable.cc:218-258): the bytes of the file; `none` if a loop does not end because its counter overflows. -/
def Hmm.print (x : Hmm) : Option (List Nat) := if x.fits then some (encRecs x.recs) else none

/-! ### The table of the IBM 2 alignment model -/

/-- `aSource` (aSource.h:38-43). -/
structure AKey where
  j : UInt32
  slen : UInt32
  tlen : UInt32
  deriving DecidableEq

/-- The members of `IncrIbm2AligTable` (IncrIbm2AligTable.h:104-109): hash tables are association lists. -/
structure Ibm2 where
  numer : List (List (AKey × UInt32))
  denom : List (AKey × UInt32)

def Ibm2.empty : Ibm2 := ⟨[], []⟩

/-- `setAligNumer` (IncrIbm2AligTable.cc:37-49). -/
def Ibm2.setNumer (x : Ibm2) (k : AKey) (i f : UInt32) : Ibm2 :=
  { x with numer := (grow x.numer i.toNat []).set i.toNat (AMap.put ((grow x.numer i.toNat []).getD i.toNat []) k f) }

/-- Found flag and value of a search in a hash table. -/
def found : Option UInt32 → Bool × UInt32
  | some f => (true, f)
  | none => (false, 0)

/-- `getAligNumer` (IncrIbm2AligTable.cc:52-79). -/
def Ibm2.getNumer (x : Ibm2) (k : AKey) (i : UInt32) : Bool × UInt32 :=
  if i.toNat ≥ x.numer.length then (false, 0) else found (AMap.lk (x.numer.getD i.toNat []) k)

/-- `setAligDenom` (IncrIbm2AligTable.cc:82-86). -/
def Ibm2.setDenom (x : Ibm2) (k : AKey) (f : UInt32) : Ibm2 := { x with denom := AMap.put x.denom k f }

/-- `getAligDenom` (IncrIbm2AligTable.cc:89-105). -/
def Ibm2.getDenom (x : Ibm2) (k : AKey) : Bool × UInt32 := found (AMap.lk x.denom k)

/-- `setAligNumDen` (IncrIbm2AligTable.cc:108-115). -/
def Ibm2.setNumDen (x : Ibm2) (k : AKey) (i n d : UInt32) : Ibm2 := (x.setNumer k i n).setDenom k d

/-- Setting the record read from a file (IncrIbm2AligTable.cc:185-193): j, slen, tlen, i. -/
def Ibm2.setRec (x : Ibm2) (r : FRec) : Ibm2 :=
  x.setNumDen ⟨r.key.getD 0 0, r.key.getD 1 0, r.key.getD 2 0⟩ (r.key.getD 3 0) r.num r.den

/-- `loadBin` (IncrIbm2AligTable.cc:160-198). -/
def Ibm2.load (file : Option (List Nat)) : Option (Bool × Ibm2) :=
  match file with
  | none => some (true, Ibm2.empty)
  | some b => (readFile 4 b).map fun l => (false, l.foldl Ibm2.setRec Ibm2.empty)

/-- The records that `printBin` writes for position `i` (IncrIbm2AligTable.cc:253-267), given the order in which the iterator
visits the elements of the hash table. -/
def Ibm2.rowRecs (x : Ibm2) (i : Nat) (l : List (AKey × UInt32)) : List FRec :=
  l.map fun e => ⟨[e.1.j, e.1.slen, e.1.tlen, UInt32.ofNat i], e.2, (x.getDenom e.1).2⟩

/-- `printBin` (IncrIbm2AligTable.cc:238-270): the possible contents of the file, for any order of the hash tables. The loop
ends only if its 32-bit counter reaches the size of the vector. -/
def Ibm2.Prints (x : Ibm2) (b : List Nat) : Prop :=
  x.numer.length < 2 ^ 32 ∧ ∃ ord : Nat → List (AKey × UInt32), (∀ i, (ord i).Perm (x.numer.getD i [])) ∧
    b = encRecs ((List.range x.numer.length).flatMap fun i => x.rowRecs i (ord i))

/-! ### Sorting -/

/-- `SortBySrcAndTrg` (thot_sort_bin_ilextable.cc:56-69, thot_sort_bin_ihmmatable.cc:54-70, thot_sort_bin_iibm2atable.cc:56-75):
the fields of the keys are compared one after the other. -/
def less : List UInt32 → List UInt32 → Bool
  | a :: as, b :: bs => if b < a then false else if a < b then true else less as bs
  | _, _ => false

/-- `main` of the sorting tools (thot_sort_bin_ihmmatable.cc:80-132): the possible outputs for the contents of a file with keys
of `k` fields; `std::sort` gives any permutation in which no record is less than an earlier one. -/
def SortTool (k : Nat) (b out : List Nat) : Prop :=
  ∃ l l' : List FRec, readFile k b = some l ∧ l'.Perm l ∧ l'.Pairwise (fun a b => less b.key a.key = false) ∧ out = encRecs l'

/-- `thot_gen_bin_lex_filter_info` (thot_gen_bin_lex_filter_info.cc:47-90): the keys of the records of a lexical table. The
count fields are read but not used; here a truncated last record is `none` all the same. -/
def filterInfo (b : List Nat) : Option (List Nat) := (readFile 2 b).map fun l => l.flatMap fun r => r.key.flatMap enc

/-- The same sorting tool on the records of the model of the merging tools: source, then target
(thot_sort_bin_ilextable.cc:56-69). -/
def recLess {S T : Type} [LinearOrder S] [LinearOrder T] (a b : Rec S T) : Bool :=
  if b.s < a.s then false
  else if a.s < b.s then true
  else if b.t < a.t then false
  else if a.t < b.t then true
  else false

/-- The possible outputs of the sorting tool for a list of records. -/
def RecSorts {S T : Type} [LinearOrder S] [LinearOrder T] (l l' : List (Rec S T)) : Prop :=
  l'.Perm l ∧ l'.Pairwise fun a b => recLess b a = false

/-- The filtering information of a table (thot_gen_bin_lex_filter_info.cc:72-82). -/
def recInfo {S T : Type} (l : List (Rec S T)) : List (S × T) := l.map fun r => (r.s, r.t)

end Thot.AligTab
