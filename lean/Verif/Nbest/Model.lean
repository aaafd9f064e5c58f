import Verif.Common.MMap
/-!
Model of `NbestTableNode<NODEDATA>` (src/nlp_common/NbestTableNode.h).
The multimap `tableNodeMultiMap` (ordered by `greaterScore`, line 95) is the list of its elements in iteration
order.  Undefined behaviour is `none`.
-/
namespace Thot.Nbest
open MMap

variable {α : Type}

/-- NbestTableNode.h:95: the multimap. -/
abbrev Table (α : Type) := List (Int × α)

/-- NbestTableNode.h:101-112 `insert`. -/
def insert (t : Table α) (s : Int) (v : α) : Table α := ins s v t

/-- NbestTableNode.h:115-127 `getBestElem`; `dflt` is the default-constructed element returned for an empty
table. -/
def getBestElem (dflt : α) (t : Table α) : α :=
  match t with
  | [] => dflt
  | e :: _ => e.2

/-- NbestTableNode.h:130-138 `getScoreOfBestElem`. -/
def getScoreOfBestElem (t : Table α) : Int :=
  match t with
  | [] => 0
  | e :: _ => e.1

/-- `erase(iter--)` with `iter` at the last element: decrementing an iterator that is `begin()` is undefined, so
the outcome is defined only when at least two elements are present. -/
def eraseLastDec (t : Table α) : Option (Table α) :=
  if t.length ≥ 2 then some t.dropLast else none

/-- NbestTableNode.h:141-148 `removeLastElement`: `end()` is decremented (undefined on an empty table), then
`erase(iter--)`. -/
def removeLastElement (t : Table α) : Option (Table α) := eraseLastDec t

/-- NbestTableNode.h:161-166: the loop of `pruneGivenThreshold`, on the elements in reverse order: the iterator is
at the head; `erase(iter--)` is undefined on the only element left (the iterator is then `begin()`). -/
def pruneLoop (thr : Int) : List (Int × α) → Option (List (Int × α))
  | [] => some []
  | e :: r => if e.1 < thr then (match r with | [] => none | _ :: _ => pruneLoop thr r) else some (e :: r)

/-- NbestTableNode.h:152-168 `pruneGivenThreshold`. -/
def pruneGivenThreshold (t : Table α) (thr : Int) : Option (Table α) :=
  if t.length > 0 then (pruneLoop thr t.reverse).map List.reverse else some t

/-- `std::pair<Score,NODEDATA>::operator<`, as the reflexive order used by sorting: first the score, then the
data. -/
def pairLe (le : α → α → Bool) (a b : Int × α) : Bool := decide (a.1 < b.1) || (decide (a.1 = b.1) && le a.2 b.2)

/-- NbestTableNode.h:171-195 `stableSort`: copy to a vector, `std::sort` by the pair order (a sorted permutation,
here merge sort), reinsert in a cleared multimap. -/
def stableSort (le : α → α → Bool) (t : Table α) : Table α :=
  let vp := t
  if vp.length > 0 then insAll [] (vp.mergeSort (pairLe le)) else t

/-- NbestTableNode.h:198-202. -/
def size (t : Table α) : Nat := t.length

/-- NbestTableNode.h:204-208. -/
def clear (_ : Table α) : Table α := []

/-- `while(nbt.size()>N) nbt.removeLastElement()`, as in the callers (StlPhraseTable.cc:137-142,
vecx_x_incr_cptable.h:543, _pbTransModel.h:2444, …).  `fuel` bounds the iterations; `none` is undefined
behaviour (or exhausted fuel). -/
def trimTo (n : Nat) : Nat → Table α → Option (Table α)
  | 0, _ => none
  | fuel + 1, t => if size t > n then (removeLastElement t).bind (trimTo n fuel) else some t

/-- The operations of the class. -/
inductive Op (α : Type) where
  | insert (s : Int) (v : α)
  | removeLast
  | prune (thr : Int)
  | sort
  | clear

/-- One call. -/
def step (le : α → α → Bool) (t : Table α) : Op α → Option (Table α)
  | .insert s v => some (insert t s v)
  | .removeLast => removeLastElement t
  | .prune thr => pruneGivenThreshold t thr
  | .sort => some (stableSort le t)
  | .clear => some (Nbest.clear t)

/-- A sequence of calls. -/
def run (le : α → α → Bool) (t : Table α) : List (Op α) → Option (Table α)
  | [] => some t
  | o :: os => (step le t o).bind (fun t => run le t os)

end Thot.Nbest
