import Verif.Common.AMap
import Verif.Nbest.Model
/-!
Model of the incremental conditional probability table `IncrCondProbTable` (src/incr_models/IncrCondProbTable.h), of
the encoder `IncrEncoder` (src/incr_models/IncrEncoder.h) and of the word-level operations that
`_incrEncCondProbModel` (src/incr_models/_incrEncCondProbModel.h) builds from them.

Simplifications: the `SRC_INFO`/`SRCTRG_INFO` objects are `LogCount`s, represented by the count whose logarithm they
store, a natural number (0 for `SMALL_LG_NUM`); `lns_sumlog` is then addition.  A `std::map` is an association list
(its iteration order is not modelled).  Reading through `end()` is `none`.
-/
namespace Thot.CondTab

open Thot Thot.AMap

/-! ### The table -/

variable {S T : Type} [DecidableEq S] [DecidableEq T]

/-- IncrCondProbTable.h:156-158: the two members. -/
structure Tab (S T : Type) where
  /-- `table`: for each target the counts of its sources. -/
  tbl : List (T × List (S × Nat))
  /-- `srcDataInfo`. -/
  src : List (S × Nat)

/-- A new table. -/
def Tab.new : Tab S T := ⟨[], []⟩

/-- IncrCondProbTable.h:165-168 `size`. -/
def Tab.size (m : Tab S T) : Nat := m.tbl.length

/-- IncrCondProbTable.h:171-175 `clear`. -/
def Tab.clear (_ : Tab S T) : Tab S T := ⟨[], []⟩

/-- IncrCondProbTable.h:188-192 `addSrcInfo`. -/
def addSrcInfo (m : Tab S T) (s : S) (c : Nat) : Tab S T := { m with src := put m.src s c }

/-- IncrCondProbTable.h:195-226 `addSrcTrgInfo`. -/
def addSrcTrgInfo (m : Tab S T) (s : S) (t : T) (c : Nat) : Tab S T :=
  match lk m.tbl t with
  | some node => { m with tbl := put m.tbl t (put node s c) }
  | none => { m with tbl := put m.tbl t [(s, c)] }

/-- IncrCondProbTable.h:178-185 `addTableEntry`. -/
def addTableEntry (m : Tab S T) (s : S) (t : T) (cs cst : Nat) : Tab S T :=
  addSrcTrgInfo (addSrcInfo m s cs) s t cst

/-- IncrCondProbTable.h:239-254: the source part of `incrCountsOfEntryLog`. -/
def incrSrc (src : List (S × Nat)) (s : S) (c : Nat) : List (S × Nat) :=
  match lk src s with
  | none => put src s c
  | some x => put src s (x + c)

/-- IncrCondProbTable.h:229-283 `incrCountsOfEntryLog`, `lc` being the logarithm of `c`
(BaseIncrCondProbTable.h:147-152 `incrCountsOfEntry`). -/
def incrCountsOfEntry (m : Tab S T) (s : S) (t : T) (c : Nat) : Tab S T :=
  let src := incrSrc m.src s c
  match lk m.tbl t with
  | none => ⟨put m.tbl t [(s, c)], src⟩
  | some node =>
    match lk node s with
    | none => ⟨put m.tbl t (put node s c), src⟩
    | some x => ⟨put m.tbl t (put node s (x + c)), src⟩

/-- IncrCondProbTable.h:316-337 `getSrcInfo`; `none` for `found=false`. -/
def getSrcInfo (m : Tab S T) (s : S) : Option Nat := lk m.src s

/-- IncrCondProbTable.h:340-372 `getSrcTrgInfo`; `none` for `found=false`. -/
def getSrcTrgInfo (m : Tab S T) (s : S) (t : T) : Option Nat :=
  match lk m.tbl t with
  | some node => lk node s
  | none => none

/-- What `infSrcTrg` does. -/
inductive Inf where
  /-- `found=false` -/
  | absent
  /-- `found=true` and the pair of counts -/
  | found (cs cst : Nat)
deriving DecidableEq, Repr

/-- IncrCondProbTable.h:287-312 `infSrcTrg`; `sdcIter->second` (line 305) is read without testing for `end()`. -/
def infSrcTrg (m : Tab S T) (s : S) (t : T) : Option Inf :=
  match lk m.tbl t with
  | some node =>
    match lk node s with
    | some cst =>
      match lk m.src s with
      | some cs => some (.found cs cst)
      | none => none
    | none => some .absent
  | none => some .absent

/-- IncrCondProbTable.h:375-404 `pTrgGivenSrc`, as a number instead of its logarithm (`SMALL_LG_NUM` is 0). -/
def pTrgGivenSrc (m : Tab S T) (s : S) (t : T) : Option Rat :=
  match infSrcTrg m s t with
  | none => none
  | some .absent => some 0
  | some (.found cs cst) => if cs = 0 then some 0 else some ((cst : Rat) / (cs : Rat))

/-- IncrCondProbTable.h:561-579 `lcTrg`, as a count. -/
def lcTrg (m : Tab S T) (t : T) : Nat :=
  match lk m.tbl t with
  | some node => node.foldl (fun a e => a + e.2) 0
  | none => 0

/-- IncrCondProbTable.h:546-551 `lcSrcTrg`, as a count (a default `SRCTRG_INFO` when not found). -/
def lcSrcTrg (m : Tab S T) (s : S) (t : T) : Nat := (getSrcTrgInfo m s t).getD 0

/-- IncrCondProbTable.h:554-559 `lcSrc`, as a count. -/
def lcSrc (m : Tab S T) (s : S) : Nat := (getSrcInfo m s).getD 0

/-- IncrCondProbTable.h:406-431 `pSrcGivenTrg`, as a number. -/
def pSrcGivenTrg (m : Tab S T) (s : S) (t : T) : Rat :=
  if lcTrg m t = 0 then 0 else (lcSrcTrg m s t : Rat) / (lcTrg m t : Rat)

/-- IncrCondProbTable.h:446-456: the loop of `getEntriesForTarget` over the entries of the target. -/
def entriesLoop (src : List (S × Nat)) : List (S × Nat) → List (S × Nat × Nat) → Option (List (S × Nat × Nat))
  | [], acc => some acc
  | e :: r, acc =>
    match lk src e.1 with
    | some cs => entriesLoop src r (put acc e.1 (cs, e.2))
    | none => none

/-- IncrCondProbTable.h:433-463 `getEntriesForTarget`: the result and the new value of `tnode`, which is cleared only
when the target is not found. -/
def getEntriesForTarget (m : Tab S T) (t : T) (tnode : List (S × Nat × Nat)) : Option (Bool × List (S × Nat × Nat)) :=
  match lk m.tbl t with
  | some node => (entriesLoop m.src node tnode).map (fun r => (true, r))
  | none => some (false, [])

/-- IncrCondProbTable.h:480-491: the loops of `getEntriesForSource`; the inner loop compares each source of the target
with `s`, at most one is equal. -/
def entriesSrcLoop (src : List (S × Nat)) (s : S) :
    List (T × List (S × Nat)) → Bool → List (T × Nat × Nat) → Option (Bool × List (T × Nat × Nat))
  | [], ret, acc => some (ret, acc)
  | e :: r, ret, acc =>
    match lk e.2 s with
    | some cst =>
      match lk src s with
      | some cs => entriesSrcLoop src s r true (put acc e.1 (cs, cst))
      | none => none
    | none => entriesSrcLoop src s r ret acc

/-- IncrCondProbTable.h:466-493 `getEntriesForSource`. -/
def getEntriesForSource (m : Tab S T) (s : S) (trgtn : List (T × Nat × Nat)) : Option (Bool × List (T × Nat × Nat)) :=
  entriesSrcLoop m.src s m.tbl false trgtn

/-- IncrCondProbTable.h:509-512: the score of a target, a logarithm minus a count; `lg` is the logarithm. -/
def scoreForSrc (lg : Nat → Int) (cs cst : Nat) : Int := lg cst - cs

/-- IncrCondProbTable.h:496-514 `getNbestForSrc`. -/
def getNbestForSrc (lg : Nat → Int) (m : Tab S T) (s : S) : Option (Bool × Nbest.Table T) :=
  match getEntriesForSource m s [] with
  | none => none
  | some (ret, tnode) => some (ret, MMap.insAll [] (tnode.map (fun e => (scoreForSrc lg e.2.1 e.2.2, e.1))))

/-- IncrCondProbTable.h:533: the score of a source, a difference of counts. -/
def scoreForTrg (cs cst : Nat) : Int := (cst : Int) - cs

/-- IncrCondProbTable.h:517-543 `getNbestForTrg`; `n = none` for a negative `N`. -/
def getNbestForTrg (m : Tab S T) (t : T) (n : Option Nat) : Option (Bool × Nbest.Table S) :=
  match getEntriesForTarget m t [] with
  | none => none
  | some (ret, tnode) =>
    let nbt := MMap.insAll [] (tnode.map (fun e => (scoreForTrg e.2.1 e.2.2, e.1)))
    match n with
    | none => some (ret, nbt)
    | some k => (Nbest.trimTo k (nbt.length + 1) nbt).map (fun r => (ret, r))

/-! ### The encoder -/

variable {H : Type} [DecidableEq H]

/-- IncrEncoder.h:115-118: one side of the encoder, the source (`hsrc_to_src`, `srcd`) or the target
(`htrg_to_trg`, `trgd`): the two sides have the same code. -/
structure Enc (H : Type) where
  /-- the codes -/
  map : List (H × Nat)
  /-- the last generated code -/
  last : Nat

/-- IncrEncoder.h:384-391 `clear` (and the constructor, 123-127): `memset` gives the counter the value 0. -/
def Enc.new : Enc H := ⟨[], 0⟩

/-- IncrEncoder.h:130-146 `HighSrc_to_Src` (149-166 `HighTrg_to_Trg`): whether the object has a code, and the value
given to the output argument. -/
def Enc.code (e : Enc H) (h : H) : Bool × Nat :=
  match lk e.map h with
  | none => (false, e.last + 1)
  | some c => (true, c)

/-- IncrEncoder.h:174-182 -/
def findCode (c : Nat) : List (H × Nat) → Option H
  | [] => none
  | e :: r => if e.2 = c then some e.1 else findCode c r

/-- IncrEncoder.h:169-183 `Src_to_HighSrc` (186-201 `Trg_to_HighTrg`). -/
def Enc.decode (e : Enc H) (c : Nat) : Option H := findCode c e.map

/-- IncrEncoder.h:204-209 `genHSrcCode` (212-217 `genHTrgCode`). -/
def Enc.gen (e : Enc H) : Enc H × Nat := (⟨e.map, e.last + 1⟩, e.last + 1)

/-- IncrEncoder.h:220-224 `addHSrcCode` (227-231 `addHTrgCode`). -/
def Enc.add (e : Enc H) (h : H) (c : Nat) : Enc H := { e with map := put e.map h c }

/-- _incrEncCondProbModel.h:608-619 `addHSrcCode` (622-633 `addHTrgCode`), also the first steps of `addTableEntryHigh`
(206-210) and of the other word-level operations. -/
def Enc.addCode (e : Enc H) (h : H) : Enc H × Nat :=
  match e.code h with
  | (true, c) => (e, c)
  | (false, _) =>
    let (e1, c) := e.gen
    (e1.add h c, c)

/-- IncrEncoder.h:254-280 `loadSrc` (283-309 `loadTrg`), on the entries of the file; `none` when it cannot be
opened.  The entry read last is assigned once more after the failed read; with no entry the variables are read
without a value.  The result is the value returned and the new encoder. -/
def Enc.loadFile (e : Enc H) : Option (List (H × Nat)) → Option (Bool × Enc H)
  | none => some (false, e)
  | some [] => none
  | some (p :: ps) =>
    let m := (p :: ps).foldl (fun m x => put m x.1 x.2) e.map
    let l := (p :: ps).getLastD p
    some (true, { e with map := put m l.1 l.2 })

/-- The two sides of an `IncrEncoder`. -/
structure Encoder (H K : Type) where
  src : Enc H
  trg : Enc K

/-- IncrEncoder.h:234-251 `load`: the value returned and the new encoder. -/
def Encoder.load {K : Type} [DecidableEq K] (e : Encoder H K) (srcFile : Option (List (H × Nat)))
    (trgFile : Option (List (K × Nat))) : Option (Bool × Encoder H K) :=
  match e.src.loadFile srcFile with
  | none => none
  | some (true, s) => some (false, ⟨s, e.trg⟩)
  | some (false, s) =>
    match e.trg.loadFile trgFile with
    | none => none
    | some (true, t) => some (false, ⟨s, t⟩)
    | some (false, t) => some (true, ⟨s, t⟩)

/-- IncrEncoder.h:312-329 `print`: the value returned and the two files after the call; `okS`/`okT` tell whether the
files can be opened for writing (331-373 `printSrc`, `printTrg`). -/
def Encoder.print {K : Type} (e : Encoder H K) (okS okT : Bool) (f : Option (List (H × Nat)) × Option (List (K × Nat))) :
    Bool × (Option (List (H × Nat)) × Option (List (K × Nat))) :=
  if okS then (false, (some e.src.map, f.2))
  else if okT then (false, (f.1, some e.trg.map))
  else (true, f)

/-! ### The word-level operations -/

/-- _incrEncCondProbModel.h:174-178: the table and the encoder. -/
structure Model (H K : Type) where
  tab : Tab Nat Nat
  enc : Encoder H K

/-- A new model. -/
def Model.new {K : Type} : Model H K := ⟨Tab.new, ⟨Enc.new, Enc.new⟩⟩

variable {K : Type} [DecidableEq K]

/-- _incrEncCondProbModel.h:201-217 `addTableEntryHigh`. -/
def addTableEntryHigh (m : Model H K) (h : H) (k : K) (cs cst : Nat) : Model H K :=
  let (es, s) := m.enc.src.addCode h
  let (et, t) := m.enc.trg.addCode k
  ⟨addTableEntry m.tab s t cs cst, ⟨es, et⟩⟩

/-- _incrEncCondProbModel.h:276-293 `incrCountsOfEntryHigh`. -/
def incrCountsOfEntryHigh (m : Model H K) (h : H) (k : K) (c : Nat) : Model H K :=
  let (es, s) := m.enc.src.addCode h
  let (et, t) := m.enc.trg.addCode k
  ⟨incrCountsOfEntry m.tab s t c, ⟨es, et⟩⟩

/-- _incrEncCondProbModel.h:336-348 `getHSrcInfo`. -/
def getHSrcInfo (m : Model H K) (h : H) : Option Nat :=
  match m.enc.src.code h with
  | (false, _) => none
  | (true, s) => getSrcInfo m.tab s

/-- _incrEncCondProbModel.h:359-380 `getHSrcHTrgInfo`. -/
def getHSrcHTrgInfo (m : Model H K) (h : H) (k : K) : Option Nat :=
  match m.enc.src.code h with
  | (false, _) => none
  | (true, s) =>
    match m.enc.trg.code k with
    | (false, _) => none
    | (true, t) => getSrcTrgInfo m.tab s t

/-- _incrEncCondProbModel.h:391-400 `pHTrgGivenHSrc`. -/
def pHTrgGivenHSrc (m : Model H K) (h : H) (k : K) : Option Rat :=
  match m.enc.src.code h with
  | (false, _) => some 0
  | (true, s) =>
    match m.enc.trg.code k with
    | (false, _) => some 0
    | (true, t) => pTrgGivenSrc m.tab s t

end Thot.CondTab
