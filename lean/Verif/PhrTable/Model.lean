import Verif.Common.AMap
/-!
Model of `StlPhraseTable` (src/phrase_models/StlPhraseTable.{h,cc}).

The three `std::map`s are association lists with distinct keys (`Common/AMap`); the iterators that make up the keys of
`srcTrgPhraseInfo` are represented by the phrases they point to (map iterators stay valid until `clear()`), and a key
with an `end()` iterator is undefined behaviour (`none`). `Count` wraps a `float`; counts are rationals here, i.e. float
rounding is not modelled (float arithmetic is exact for integer counts up to 2^24). `log` is not modelled.
-/
namespace Thot.PhrTable
open AMap

abbrev Phrase := List Nat

/-- StlPhraseTable.h:190-192. -/
structure Table where
  src : List (Phrase × Rat)
  trg : List (Phrase × Rat)
  st : List ((Phrase × Phrase) × Rat)

/-- StlPhraseTable.cc:32-34. -/
def empty : Table := ⟨[], [], []⟩

/-- StlPhraseTable.cc:167-180 `addSrcInfo`. -/
def addSrcInfo (m : Table) (s : Phrase) (c : Rat) : Table := { m with src := put m.src s c }

/-- StlPhraseTable.cc:183-196 `addTrgInfo`. -/
def addTrgInfo (m : Table) (t : Phrase) (c : Rat) : Table := { m with trg := put m.trg t c }

/-- StlPhraseTable.cc:37-55 `getSrcTrgKey`: (`found`, table); a missing target phrase is inserted with count 0. -/
def getSrcTrgKey (m : Table) (s t : Phrase) : Bool × Table :=
  ((lk m.src s).isSome, if (lk m.trg t).isSome then m else addTrgInfo m t 0)

/-- StlPhraseTable.cc:280-295 `getSrcInfo`: (count, found). -/
def getSrcInfo (m : Table) (s : Phrase) : Rat × Bool := ((lk m.src s).getD 0, (lk m.src s).isSome)

/-- StlPhraseTable.cc:298-313 `getTrgInfo`. -/
def getTrgInfo (m : Table) (t : Phrase) : Rat × Bool := ((lk m.trg t).getD 0, (lk m.trg t).isSome)

/-- StlPhraseTable.cc:316-336 `getSrcTrgInfo`: ((count, found), table). -/
def getSrcTrgInfo (m : Table) (s t : Phrase) : (Rat × Bool) × Table :=
  let (found, m') := getSrcTrgKey m s t
  if found then (((lk m'.st (s, t)).getD 0, (lk m'.st (s, t)).isSome), m') else ((0, false), m')

/-- StlPhraseTable.cc:454-459 `cSrcTrg`. -/
def cSrcTrg (m : Table) (s t : Phrase) : Rat × Table :=
  let ((c, _), m') := getSrcTrgInfo m s t
  (c, m')

/-- StlPhraseTable.cc:462-466 `cSrc`. -/
def cSrc (m : Table) (s : Phrase) : Rat := (getSrcInfo m s).1

/-- StlPhraseTable.cc:469-473 `cTrg`. -/
def cTrg (m : Table) (t : Phrase) : Rat := (getTrgInfo m t).1

/-- StlPhraseTable.cc:199-241 `addSrcTrgInfo`: when the source phrase is missing the key holds `end()`, which `find`
dereferences. -/
def addSrcTrgInfo (m : Table) (s t : Phrase) (c : Rat) : Option Table :=
  let (found, m') := getSrcTrgKey m s t
  if found then some { m' with st := put m'.st (s, t) c } else none

/-- StlPhraseTable.cc:154-164 `addTableEntry` with `inf=(cs,cst)`. -/
def addTableEntry (m : Table) (s t : Phrase) (cs cst : Rat) : Option Table :=
  let tc := cTrg m t
  addSrcTrgInfo (addTrgInfo (addSrcInfo m s cs) t (tc + cst)) s t cst

/-- StlPhraseTable.cc:244-257 `incrCountsOfEntry`. -/
def incrCountsOfEntry (m : Table) (s t : Phrase) (c : Rat) : Option Table :=
  let sc := cSrc m s
  let tc := cTrg m t
  let (stc, m1) := cSrcTrg m s t
  addSrcTrgInfo (addTrgInfo (addSrcInfo m1 s (sc + c)) t (tc + c)) s t (stc + c)

/-- StlPhraseTable.cc:260-277 `infSrcTrg`: ((c_s, c_st), found). -/
def infSrcTrg (m : Table) (s t : Phrase) : ((Rat × Rat) × Bool) × Table :=
  let (cs, found) := getSrcInfo m s
  if found then
    let ((cst, f), m') := getSrcTrgInfo m s t
    (((cs, cst), f), m')
  else (((cs, 0), false), m)

/-- `PHRASE_PROB_SMOOTH` (src/phrase_models/PhraseDefs.h), 1e-10. -/
def smooth : Rat := 1 / 10000000000

/-- StlPhraseTable.cc:339-353 `pTrgGivenSrc`. -/
def pTrgGivenSrc (m : Table) (s t : Phrase) : Rat × Table :=
  let (c, m') := cSrcTrg m s t
  if c > 0 then (if cSrc m' s > 0 then c / cSrc m' s else smooth, m') else (smooth, m')

/-- StlPhraseTable.cc:363-377 `pSrcGivenTrg`. -/
def pSrcGivenTrg (m : Table) (s t : Phrase) : Rat × Table :=
  let (c, m') := cSrcTrg m s t
  if c > 0 then (if cTrg m' t > 0 then c / cTrg m' t else smooth, m') else (smooth, m')

/-- MathDefs.h:39 `EPSILON`: 100*FLT_EPSILON, FLT_EPSILON=2^-23. -/
def eps : Rat := 100 / 8388608

/-- `fabs`. -/
def rabs (x : Rat) : Rat := if x < 0 then -x else x

/-- StlPhraseTable.h:66-85 `SrcTrgKeyComparator`: target phrases first. -/
def keyLt (a b : Phrase × Phrase) : Bool := if a.2 = b.2 then decide (a.1 < b.1) else decide (a.2 < b.2)

/-- `srcPhraseInfo.begin()->first`: the least source phrase; undefined on an empty map. -/
def minKey : List (Phrase × Rat) → Option Phrase
  | [] => none
  | e :: r => match minKey r with
    | none => some e.1
    | some k => if e.1 < k then some e.1 else some k

/-- `srcPhraseInfo.rbegin()->first`: the greatest source phrase. -/
def maxKey : List (Phrase × Rat) → Option Phrase
  | [] => none
  | e :: r => match maxKey r with
    | none => some e.1
    | some k => if k < e.1 then some e.1 else some k

/-- The entry put in the result for an element of `srcTrgPhraseInfo`, none when one of the counts is negligible
(StlPhraseTable.cc:404-416). -/
def srcEntry (m : Table) (e : (Phrase × Phrase) × Rat) : Option (Phrase × (Rat × Rat)) :=
  let cs := (lk m.src e.1.1).getD 0
  if rabs cs < eps ∨ rabs e.2 < eps then none else some (e.1.1, (cs, e.2))

/-- StlPhraseTable.cc:387-419 `getEntriesForTarget`: ((entries, returned value), table). The scan from
`lower_bound(srcTrgBegin)` to `upper_bound(srcTrgEnd)` of an ordered map visits the elements that are neither before the
one key nor after the other. -/
def getEntriesForTarget (m : Table) (t : Phrase) : Option ((List (Phrase × (Rat × Rat)) × Bool) × Table) :=
  match minKey m.src, maxKey m.src with
  | some lo, some hi =>
    let (found, m1) := getSrcTrgKey m lo t
    if found then
      let (found', m2) := getSrcTrgKey m1 hi t
      if found' then
        let es := (m2.st.filter (fun e => !keyLt e.1 (lo, t) && !keyLt (hi, t) e.1)).filterMap (srcEntry m2)
        some ((es, !es.isEmpty), m2)
      else some (([], false), m2)
    else some (([], false), m1)
  | _, _ => none

/-- The entry for `getEntriesForSource`. -/
def trgEntry (m : Table) (e : (Phrase × Phrase) × Rat) : Option (Phrase × (Rat × Rat)) :=
  let ct := (lk m.trg e.1.2).getD 0
  if rabs ct < eps ∨ rabs e.2 < eps then none else some (e.1.2, (ct, e.2))

/-- StlPhraseTable.cc:422-451 `getEntriesForSource`. -/
def getEntriesForSource (m : Table) (s : Phrase) : List (Phrase × (Rat × Rat)) × Bool :=
  let es := (m.st.filter (fun e => e.1.1 = s)).filterMap (trgEntry m)
  (es, !es.isEmpty)

/-- StlPhraseTable.cc:504-511 `size`. -/
def size (m : Table) : Nat := m.src.length + m.trg.length + m.st.length

/-- StlPhraseTable.cc:513-518 `clear`. -/
def clear (_ : Table) : Table := ⟨[], [], []⟩

/-- The public calls (`print` and iterators excepted). -/
inductive Op where
  | incr (s t : Phrase) (c : Rat)
  | add (s t : Phrase) (cs cst : Rat)
  | cSrc (s : Phrase)
  | cTrg (t : Phrase)
  | cSrcTrg (s t : Phrase)
  | pTrgGivenSrc (s t : Phrase)
  | pSrcGivenTrg (s t : Phrase)
  | infSrcTrg (s t : Phrase)
  | entriesForTarget (t : Phrase)
  | entriesForSource (s : Phrase)
  | size

/-- What a call returns. -/
inductive Res where
  | unit
  | count (c : Rat)
  | inf (r : (Rat × Rat) × Bool)
  | entries (r : List (Phrase × (Rat × Rat)) × Bool)
  | nat (n : Nat)

/-- One call: its result and the table afterwards. -/
def step (m : Table) : Op → Option (Res × Table)
  | .incr s t c => (incrCountsOfEntry m s t c).map (fun m' => (.unit, m'))
  | .add s t cs cst => (addTableEntry m s t cs cst).map (fun m' => (.unit, m'))
  | .cSrc s => some (.count (cSrc m s), m)
  | .cTrg t => some (.count (cTrg m t), m)
  | .cSrcTrg s t => some (.count (cSrcTrg m s t).1, (cSrcTrg m s t).2)
  | .pTrgGivenSrc s t => some (.count (pTrgGivenSrc m s t).1, (pTrgGivenSrc m s t).2)
  | .pSrcGivenTrg s t => some (.count (pSrcGivenTrg m s t).1, (pSrcGivenTrg m s t).2)
  | .infSrcTrg s t => some (.inf (infSrcTrg m s t).1, (infSrcTrg m s t).2)
  | .entriesForTarget t => (getEntriesForTarget m t).map (fun r => (.entries r.1, r.2))
  | .entriesForSource s => some (.entries (getEntriesForSource m s), m)
  | .size => some (.nat (size m), m)

/-- A history of calls. -/
def run (m : Table) : List Op → Option Table
  | [] => some m
  | o :: os => match step m o with
    | none => none
    | some (_, m') => run m' os

end Thot.PhrTable
