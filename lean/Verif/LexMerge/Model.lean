import Verif.Common.Sum
import Mathlib.Order.Defs.LinearOrder
import Mathlib.Order.Lattice
/-!
Model of the tools that sort, merge, prune and filter binary tables of counts: `thot_merge_bin_ilextable.cc`,
`thot_merge_bin_iibm2atable.cc`, `thot_merge_bin_ihmmatable.cc`, `thot_prune_bin_ilextable.cc`,
`thot_filter_bin_ilextable.cc`, and of `IncrLexTable.cc`.

The three merge tools are the same program for other types of keys: `S` is the type of source events (words; triples j,
slen, tlen; pairs prev_i, slen; in lexicographic order) and `T` the type of target events.

Simplifications: counts are exact rationals in the probability domain (`lns_sumlog` is addition, `SMALL_LG_NUM` is 0); a
file is its list of complete records.
-/
namespace Thot.LexMerge

open Thot Thot.Sum

/-- A record of a table (thot_merge_bin_ilextable.cc:45-52): source, target, numerator and denominator. -/
structure Rec (S T : Type) where
  s : S
  t : T
  num : Rat
  den : Rat
  deriving DecidableEq

/-- `Entry` (thot_merge_bin_ilextable.cc:45-52): a record and the number of its file. -/
structure Ent (S T : Type) where
  r : Rec S T
  id : Nat

variable {S T : Type} [LinearOrder S] [LinearOrder T]

/-- `SortBySrcAndTrg` of the priority queue (thot_merge_bin_ilextable.cc:54-67): whether `a` has less priority than `b`. -/
def cmp (a b : Rec S T) : Bool :=
  if b.s < a.s then true
  else if a.s < b.s then false
  else if b.t < a.t then true
  else false

/-- Reading the next record of file `i`, to be pushed onto the queue (thot_merge_bin_ilextable.cc:213-225, 236-246). -/
def readNext (rest : Nat → List (Rec S T)) (i : Nat) : List (Ent S T) :=
  match rest i with
  | [] => []
  | r :: _ => [⟨r, i⟩]

/-- The position in file `i` after reading a record. -/
def advance (rest : Nat → List (Rec S T)) (i : Nat) : Nat → List (Rec S T) := fun j => if j = i then (rest i).tail else rest j

/-- `initPrQueue` (thot_merge_bin_ilextable.cc:206-225), for `k` files. -/
def initQueue (files : Nat → List (Rec S T)) (k : Nat) : List (Ent S T) := (List.range k).flatMap (readNext files)

/-- The entries that successive calls of `getNextEntry` (thot_merge_bin_ilextable.cc:228-255) return until none is left. The
top of the priority queue is any entry such that no other one has more priority. -/
inductive Emits : List (Ent S T) → (Nat → List (Rec S T)) → List (Ent S T) → Prop
  | done (rest : Nat → List (Rec S T)) : Emits [] rest []
  | next (q1 q2 : List (Ent S T)) (e : Ent S T) (rest : Nat → List (Rec S T)) (es : List (Ent S T))
      (top : ∀ e' ∈ q1 ++ e :: q2, cmp e.r e'.r = false)
      (h : Emits (readNext rest e.id ++ (q1 ++ q2)) (advance rest e.id) es) : Emits (q1 ++ e :: q2) rest (e :: es)

/-- One iteration of the loop of `printCounts` (thot_merge_bin_ilextable.cc:266-285): current target, its count, and the
output. -/
def pcStep (s : S) (lc : Rat) (st : T × Rat × List (Rec S T)) (x : T × Rat) : T × Rat × List (Rec S T) :=
  if st.1 = x.1 then (st.1, st.2.1 + x.2, st.2.2)
  else (x.1, x.2, st.2.2 ++ [⟨s, st.1, st.2.1, lc⟩])

/-- `printCounts` (thot_merge_bin_ilextable.cc:258-292); `none` is the access to the first element of an empty vector. -/
def printCounts (s : S) (grp : List (T × Rat)) (lc : Rat) : Option (List (Rec S T)) :=
  match grp with
  | [] => none
  | x :: rest =>
    let st := rest.foldl (pcStep s lc) (x.1, x.2, [])
    some (st.2.2 ++ [⟨s, st.1, st.2.1, lc⟩])

/-- The variables of `main` (thot_merge_bin_ilextable.cc:118-125): `firstSrc` (none before the first entry), `lcSrc`, the two
vectors, `chunkSet` and what has been written (`none` after an invalid access). -/
structure St (S T : Type) where
  src : Option S
  lc : Rat
  grp : List (T × Rat)
  chunks : List Nat
  out : Option (List (Rec S T))

def St.init : St S T := ⟨none, 0, [], [], some []⟩

/-- Appending the result of `printCounts` to the output. -/
def append (o p : Option (List (Rec S T))) : Option (List (Rec S T)) :=
  match o, p with
  | some a, some b => some (a ++ b)
  | _, _ => none

/-- The groups of entries of the same source (thot_merge_bin_ilextable.cc:135-168). -/
def group (st : St S T) (e : Ent S T) : St S T :=
  match st.src with
  | none => { st with src := some e.r.s, grp := st.grp ++ [(e.r.t, e.r.num)] }
  | some s =>
    if s ≠ e.r.s then
      { src := some e.r.s, lc := 0, grp := [(e.r.t, e.r.num)], chunks := [], out := append st.out (printCounts s st.grp st.lc) }
    else { st with grp := st.grp ++ [(e.r.t, e.r.num)] }

/-- An iteration of the main loop: then each file adds its denominator once (thot_merge_bin_ilextable.cc:169-174). -/
def step (st : St S T) (e : Ent S T) : St S T :=
  let st1 := group st e
  if e.id ∈ st1.chunks then st1
  else { st1 with chunks := e.id :: st1.chunks, lc := st1.lc + e.r.den }

/-- After the loop (thot_merge_bin_ilextable.cc:178-179). -/
def finish (st : St S T) : Option (List (Rec S T)) :=
  append st.out (match st.src with
    | none => none
    | some s => printCounts s st.grp st.lc)

/-- `main`: the possible outputs for `k` files. -/
def Merges (files : Nat → List (Rec S T)) (k : Nat) (out : Option (List (Rec S T))) : Prop :=
  ∃ es, Emits (initQueue files k) (fun i => (files i).tail) es ∧ out = finish (es.foldl step St.init)

/-! ### Pruning -/

/-- The first loop of `printCounts` of `thot_prune_bin_ilextable` (thot_prune_bin_ilextable.cc:169-180): how many entries are
kept and the sum of their counts. -/
def keepLoop (n : Nat) (c lc : Rat) : List (T × Rat) → Rat × Nat → Rat × Nat
  | [], st => st
  | x :: l, st =>
    if (st.2 < n ∨ n ≤ 0) ∧ x.2 / lc ≥ c then keepLoop n c lc l (st.1 + x.2, st.2 + 1)
    else st

/-- `printCounts` (thot_prune_bin_ilextable.cc:150-190), given the entries sorted by count. -/
def pruneGroup (n : Nat) (c : Rat) (s : S) (lc : Rat) (sorted : List (T × Rat)) : List (Rec S T) :=
  let st := keepLoop n c lc sorted (0, 0)
  (sorted.take st.2).map fun x => ⟨s, x.1, x.2, st.1⟩

/-- `std::sort` with `SortByLogCount` (thot_prune_bin_ilextable.cc:54-64, 166): a permutation with nonincreasing counts, any
of them. -/
def Sorts (l l' : List (T × Rat)) : Prop := l'.Perm l ∧ l'.Pairwise fun a b => ¬ a.2 < b.2

/-- The loop of `main` (thot_prune_bin_ilextable.cc:95-141): groups of consecutive records of the same source, with the sum
of their numerators; the last component is the current group. -/
def pgStep (st : List (S × List (T × Rat) × Rat) × Option (S × List (T × Rat) × Rat)) (r : Rec S T) :
    List (S × List (T × Rat) × Rat) × Option (S × List (T × Rat) × Rat) :=
  match st.2 with
  | none => (st.1, some (r.s, [(r.t, r.num)], r.num))
  | some g =>
    if g.1 ≠ r.s then (st.1 ++ [g], some (r.s, [(r.t, r.num)], r.num))
    else (st.1, some (g.1, g.2.1 ++ [(r.t, r.num)], g.2.2 + r.num))

/-- All the groups; for an empty file `printCounts` prints nothing (thot_prune_bin_ilextable.cc:142-143). -/
def pruneGroups (l : List (Rec S T)) : List (S × List (T × Rat) × Rat) :=
  (l.foldl pgStep ([], none)).1 ++ (l.foldl pgStep ([], none)).2.toList

/-- The possible outputs of `thot_prune_bin_ilextable`. -/
inductive Prunes (n : Nat) (c : Rat) : List (S × List (T × Rat) × Rat) → List (Rec S T) → Prop
  | nil : Prunes n c [] []
  | cons (s : S) (grp sorted : List (T × Rat)) (lc : Rat) (gs : List (S × List (T × Rat) × Rat)) (out : List (Rec S T))
      (hs : Sorts grp sorted) (h : Prunes n c gs out) : Prunes n c ((s, grp, lc) :: gs) (pruneGroup n c s lc sorted ++ out)

/-! ### Filtering -/

/-- The loop of `thot_filter_bin_ilextable` (thot_filter_bin_ilextable.cc:85-116): the table and the records of the filter
file that remain, the first one being the current one. -/
def filter : List (Rec S T) → List (S × T) → List (Rec S T)
  | _, [] => []
  | [], _ :: _ => []
  | r :: l, f :: fs => if r.s = f.1 ∧ r.t = f.2 then r :: filter l fs else filter l (f :: fs)

end Thot.LexMerge
