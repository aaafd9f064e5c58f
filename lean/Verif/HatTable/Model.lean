import Verif.LevelDb.Model
import Verif.Nbest.Model
/-!
Model of `HatTriePhraseTable` (src/phrase_models/HatTriePhraseTable.{h,cc}), the phrase table used by the phrase models
when THOT_HAVE_CXX11 is defined (_incrPhraseModel.h, WbaIncrPhraseModel.h).

The `tsl::htrie_map<char,Count>` is an association list from byte strings to counts with distinct keys; its iteration
order is the order of the list (the real one is unspecified: no theorem depends on it). The key encoding is the one of
`LevelDbPhraseTable` (`Thot.LevelDb.key`); keys contain no zero byte (C28), so passing them through `c_str()` changes
nothing. `Count` wraps a `float`; counts are rationals, float rounding is not modelled. `log` is a parameter of the
functions that rank translations. Undefined behaviour is `none`.
-/
namespace Thot.HatTable
open AMap Thot.LevelDb

/-- HatTriePhraseTable.h `phraseTable`. -/
abbrev Trie := List (Bytes × Rat)

/-- HatTriePhraseTable.cc:226-231 `addSrcInfo`. -/
def addSrcInfo (m : Trie) (s : Phrase) (c : Rat) : Trie := put m (key (encodeSrc s)) c

/-- HatTriePhraseTable.cc:234-239 `addTrgInfo`. -/
def addTrgInfo (m : Trie) (t : Phrase) (c : Rat) : Trie := put m (key t) c

/-- HatTriePhraseTable.cc:242-248 `addSrcTrgInfo`. -/
def addSrcTrgInfo (m : Trie) (s t : Phrase) (c : Rat) : Trie := put m (key (encodeTrgSrc s t)) c

/-- HatTriePhraseTable.cc:287-303 `getSrcInfo`: (count, found). -/
def getSrcInfo (m : Trie) (s : Phrase) : Rat × Bool :=
  ((lk m (key (encodeSrc s))).getD 0, (lk m (key (encodeSrc s))).isSome)

/-- HatTriePhraseTable.cc:306-322 `getTrgInfo`. -/
def getTrgInfo (m : Trie) (t : Phrase) : Rat × Bool := ((lk m (key t)).getD 0, (lk m (key t)).isSome)

/-- HatTriePhraseTable.cc:325-343 `getSrcTrgInfo`. -/
def getSrcTrgInfo (m : Trie) (s t : Phrase) : Rat × Bool :=
  ((lk m (key (encodeTrgSrc s t))).getD 0, (lk m (key (encodeTrgSrc s t))).isSome)

/-- HatTriePhraseTable.cc:458-463 `cSrcTrg`. -/
def cSrcTrg (m : Trie) (s t : Phrase) : Rat := (getSrcTrgInfo m s t).1

/-- HatTriePhraseTable.cc:466-470 `cSrc`. -/
def cSrc (m : Trie) (s : Phrase) : Rat := (getSrcInfo m s).1

/-- HatTriePhraseTable.cc:473-477 `cTrg`. -/
def cTrg (m : Trie) (t : Phrase) : Rat := (getTrgInfo m t).1

/-- HatTriePhraseTable.cc:213-223 `addTableEntry` with `inf=(cs,cst)`. -/
def addTableEntry (m : Trie) (s t : Phrase) (cs cst : Rat) : Trie :=
  let tc := cTrg m t
  addSrcTrgInfo (addTrgInfo (addSrcInfo m s cs) t (tc + cst)) s t cst

/-- HatTriePhraseTable.cc:251-264 `incrCountsOfEntry`. -/
def incrCountsOfEntry (m : Trie) (s t : Phrase) (c : Rat) : Trie :=
  let sc := cSrc m s
  let tc := cTrg m t
  let stc := cSrcTrg m s t
  addSrcTrgInfo (addTrgInfo (addSrcInfo m s (sc + c)) t (tc + c)) s t (stc + c)

/-- HatTriePhraseTable.cc:267-284 `infSrcTrg`: ((c_s, c_st), found). -/
def infSrcTrg (m : Trie) (s t : Phrase) : (Rat × Rat) × Bool :=
  if (getSrcInfo m s).2 then (((getSrcInfo m s).1, (getSrcTrgInfo m s t).1), (getSrcTrgInfo m s t).2)
  else (((getSrcInfo m s).1, 0), false)

/-- `PHRASE_PROB_SMOOTH`, 1e-10 (PhraseDefs.h). -/
def smooth : Rat := 1 / 10000000000

/-- HatTriePhraseTable.cc:346-360 `pTrgGivenSrc`. -/
def pTrgGivenSrc (m : Trie) (s t : Phrase) : Rat :=
  if cSrcTrg m s t > 0 then (if cSrc m s > 0 then cSrcTrg m s t / cSrc m s else smooth) else smooth

/-- HatTriePhraseTable.cc:370-384 `pSrcGivenTrg`. -/
def pSrcGivenTrg (m : Trie) (s t : Phrase) : Rat :=
  if cSrcTrg m s t > 0 then (if cTrg m t > 0 then cSrcTrg m s t / cTrg m t else smooth) else smooth

/-- HatTriePhraseTable.cc:409-416: the body of the prefix scan for one key: the entry inserted, if any. An undecodable key
or `vec.begin()+t.size()+1` past the end is undefined. -/
def scanTrg (m : Trie) (t : Phrase) (k : Bytes) : Option (Option (Phrase × (Rat × Rat))) :=
  match stringToVector 3 k with
  | none => none
  | some vec =>
    if vec.length < t.length + 1 then none
    else some
      (if !(infSrcTrg m (vec.drop (t.length + 1)) t).2 || rabs (infSrcTrg m (vec.drop (t.length + 1)) t).1.1 < eps ||
          rabs (infSrcTrg m (vec.drop (t.length + 1)) t).1.2 < eps then none
        else some (vec.drop (t.length + 1), (infSrcTrg m (vec.drop (t.length + 1)) t).1))

/-- `std::map<std::vector<WordIndex>,PhrasePairInfo>::insert`: an element with a present key is not inserted. -/
def mapIns (e : Phrase × (Rat × Rat)) : List (Phrase × (Rat × Rat)) → List (Phrase × (Rat × Rat))
  | [] => [e]
  | x :: r => if e.1 < x.1 then e :: x :: r else if e.1 = x.1 then x :: r else x :: mapIns e r

/-- The insertions of a scan, in order, into a cleared map. -/
def toMap (es : List (Phrase × (Rat × Rat))) : List (Phrase × (Rat × Rat)) := es.foldl (fun m e => mapIns e m) []

/-- HatTriePhraseTable.cc:394-420 `getEntriesForTarget`: (entries in map order, returned value). -/
def getEntriesForTarget (m : Trie) (t : Phrase) : Option (List (Phrase × (Rat × Rat)) × Bool) :=
  match mapOpt (scanTrg m t) ((m.map Prod.fst).filter (fun k => (key (encodeTrgSrc [] t)).isPrefixOf k)) with
  | none => none
  | some es => some (toMap (es.filterMap id), !(toMap (es.filterMap id)).isEmpty)

/-- `(int) x` for a `float`: truncation towards zero; undefined when the value does not fit. -/
def toInt (x : Rat) : Option Int :=
  let n := if x < 0 then -((-x).floor) else x.floor
  if -(2 ^ 31 : Int) ≤ n ∧ n < (2 ^ 31 : Int) then some n else none

/-- HatTriePhraseTable.cc:448 `(int) ppi.first.get_c_s() == 0 || (int) ppi.second.get_c_s() == 0` (the second conversion
is evaluated only when the first is not zero). -/
def droppedSrc (ct cst : Rat) : Option Bool :=
  match toInt ct with
  | none => none
  | some a => if a = 0 then some true else (toInt cst).map (fun b => decide (b = 0))

/-- HatTriePhraseTable.cc:433-451: the body of the scan of `getEntriesForSource` for one element. -/
def scanSrc (m : Trie) (s : Phrase) (e : Bytes × Rat) : Option (Option (Phrase × (Rat × Rat))) :=
  match stringToVector 3 e.1 with
  | none => none
  | some vec =>
    if vec.length ≤ s.length + 1 then some none
    else if vec.drop (vec.length - (s.length + 1)) ≠ encodeSrc s then some none
    else (droppedSrc (cTrg m (vec.take (vec.length - (s.length + 1)))) e.2).map (fun d =>
      if d then none
      else some (vec.take (vec.length - (s.length + 1)), (cTrg m (vec.take (vec.length - (s.length + 1))), e.2)))

/-- HatTriePhraseTable.cc:423-455 `getEntriesForSource`: (entries in map order, returned value). -/
def getEntriesForSource (m : Trie) (s : Phrase) : Option (List (Phrase × (Rat × Rat)) × Bool) :=
  match mapOpt (scanSrc m s) m with
  | none => none
  | some es => some (toMap (es.filterMap id), !(toMap (es.filterMap id)).isEmpty)

/-- The insertions of the ranking loops: `nbt.insert(log(c_st/c),phrase)` for each entry in map order. -/
def fillNbest (lg : Rat → Int) (c : Rat) : List (Phrase × (Rat × Rat)) → Nbest.Table Phrase → Nbest.Table Phrase
  | [], nbt => nbt
  | e :: es, nbt => fillNbest lg c es (Nbest.insert nbt (lg (e.2.2 / c)) e.1)

/-- HatTriePhraseTable.cc:118-159 `getNbestForSrc`: (table, returned value); `nbt` is cleared first. `lg` is the
(correctly rounded) logarithm, scores being order-isomorphic to integers (Common/MMap). -/
def getNbestForSrc (lg : Rat → Int) (m : Trie) (s : Phrase) : Option (Nbest.Table Phrase × Bool) :=
  match getEntriesForSource m s with
  | none => none
  | some (es, found) => if found then some (fillNbest lg (cSrc m s) es [], true) else some ([], false)

/-- HatTriePhraseTable.cc:197-201: `while(nbt.size()>(unsigned int)N && N>=0) nbt.removeLastElement()`. -/
def trimNbest (n : Int) (nbt : Nbest.Table Phrase) : Option (Nbest.Table Phrase) :=
  if n < 0 then some nbt else Nbest.trimTo n.toNat (nbt.length + 1) nbt

/-- HatTriePhraseTable.cc:161-210 `getNbestForTrg`. -/
def getNbestForTrg (lg : Rat → Int) (m : Trie) (t : Phrase) (n : Int) : Option (Nbest.Table Phrase × Bool) :=
  match getEntriesForTarget m t with
  | none => none
  | some (es, found) =>
    if found then (trimNbest n (fillNbest lg (cTrg m t) es [])).map (fun r => (r, true)) else some ([], false)

/-- HatTriePhraseTable.cc:526-529 `size`. -/
def size (m : Trie) : Nat := m.length

/-- HatTriePhraseTable.cc:531-534 `clear`. -/
def clear (_ : Trie) : Trie := []

/-- HatTriePhraseTable.cc:537-546 `isTargetPhrase`. -/
def isTargetPhrase (v : Phrase) : Bool := v.all (fun w => w != unusedWord)

/-- HatTriePhraseTable.cc:554-566 `begin`: the elements from the position of the iterator on. Going past the last element
(or an empty table) is undefined: the loop does not compare with `end()`. -/
def begin : Trie → Option Trie
  | [] => none
  | e :: r => match stringToVector 3 e.1 with
    | none => none
    | some v => if isTargetPhrase v then some (e :: r) else begin r

/-- HatTriePhraseTable.cc:582-587: the loop of `operator++` on the elements after the current one: the elements from the
new position on ([] is `end()`). -/
def nextLoop : Trie → Option Trie
  | [] => some []
  | e :: r => match stringToVector 3 e.1 with
    | none => none
    | some v => if !isTargetPhrase v || e.2 == 0 then nextLoop r else some (e :: r)

/-- HatTriePhraseTable.cc:577-595 `const_iterator::operator++`: (position, returned value). -/
def next : Trie → Option (Trie × Bool)
  | [] => some ([], false)
  | _ :: r => (nextLoop r).map (fun p => (p, !p.isEmpty))

/-- HatTriePhraseTable.cc:622-638 `const_iterator::operator->` at a position. -/
def deref : Trie → Option (Phrase × Rat)
  | [] => some ([], 0)
  | e :: _ => (stringToVector 3 e.1).map (fun v => (v, e.2))

/-- `for(iter=begin();iter!=end();++iter)`, the elements visited from a position on (`fuel` bounds the iterations). -/
def visitFrom : Nat → Trie → Option (List (Phrase × Rat))
  | _, [] => some []
  | 0, _ :: _ => none
  | fuel + 1, e :: r => match deref (e :: r), next (e :: r) with
    | some x, some (p, _) => (visitFrom fuel p).map (x :: ·)
    | _, _ => none

/-- The loop of the callers (e.g. _incrPhraseModel.cc:424-442 `printTTable`). -/
def visit (m : Trie) : Option (List (Phrase × Rat)) :=
  match begin m with
  | none => none
  | some p => visitFrom p.length p

/-- The modifying calls. -/
inductive Op where
  | add (s t : Phrase) (cs cst : Rat)
  | addSrc (s : Phrase) (c : Rat)
  | addTrg (t : Phrase) (c : Rat)
  | addSrcTrg (s t : Phrase) (c : Rat)
  | incr (s t : Phrase) (c : Rat)
  | clear

def step (m : Trie) : Op → Trie
  | .add s t cs cst => addTableEntry m s t cs cst
  | .addSrc s c => addSrcInfo m s c
  | .addTrg t c => addTrgInfo m t c
  | .addSrcTrg s t c => addSrcTrgInfo m s t c
  | .incr s t c => incrCountsOfEntry m s t c
  | .clear => clear m

/-- A history on a new table (HatTriePhraseTable.cc:32-34). -/
def run (os : List Op) : Trie := os.foldl step []

end Thot.HatTable
