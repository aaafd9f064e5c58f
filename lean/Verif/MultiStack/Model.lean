import Verif.Stack.Model
import Verif.Common.AMap
/-!
Model of `SmtMultiStackRec<HYPOTHESIS_REC>` (src/stack_dec/SmtMultiStackRec.h), `_smtMultiStack<HYPOTHESIS>`
(src/stack_dec/_smtMultiStack.h) and `HypStateDict` (src/stack_dec/HypStateDict.h).

* A hypothesis has a score, a recombination state (`getHypState`), an equivalence class (`getEqClass`, the key of
  the sub-stack; classes are compared by `<` only and modelled by `Nat`) and other data.
* Iterators into a sub-stack are pairs (key of the sub-stack, handle); every inserted hypothesis gets a fresh handle.
  Erasing through an iterator whose element is no longer in the container is undefined: `none`.
* `multiContainer` is a hash map whose nodes (the sub-stacks) never move; `sortedStacksMap` is the sorted list of
  its keys.
-/
namespace Thot.MultiStack
open MMap AMap

/-- A hypothesis as seen by the stacks. -/
structure Hyp (S D : Type) where
  score : Int
  state : S
  cls : Nat
  data : D
  deriving DecidableEq

/-- Stack element: (score, (handle, hypothesis)). -/
abbrev Elem (S D : Type) := Int × (Nat × Hyp S D)

/-- _smtMultiStack.h:94-98, SmtMultiStackRec.h:107-108 and the dictionary pointed to (HypStateDict.h:102; the
`coverage` field is never read by the stacks and is omitted). -/
structure MS (S D : Type) where
  max : Nat
  bf : Bool
  stacks : List (Nat × Stack.Stack (Nat × Hyp S D))
  sorted : List Nat
  recInfo : List (Nat × (Nat × Nat))
  dict : List (S × (Nat × Int))
  next : Nat

variable {S D : Type} [DecidableEq S]

/-- _smtMultiStack.h:106-115 constructor, with a given dictionary. -/
def new (dict : List (S × (Nat × Int))) : MS S D := ⟨64, false, [], [], [], dict, 0⟩

/-- _smtMultiStack.h:117-129 `setMaxStackSize`. -/
def setMaxStackSize (ms : MS S D) (m : Nat) : MS S D :=
  { ms with max := m, stacks := ms.stacks.map (fun e => (e.1, Stack.setMaxStackSize e.2 m)) }

/-- _smtMultiStack.h:218-222 `set_bf`. -/
def setBf (ms : MS S D) (b : Bool) : MS S D := { ms with bf := b }

/-- `sortedStacksMap.insert(make_pair(key,pos))`: no effect when the key is present. -/
def insSorted (k : Nat) : List Nat → List Nat
  | [] => [k]
  | x :: xs => if k < x then k :: x :: xs else if k = x then x :: xs else x :: insSorted k xs

/-- `sortedStacksMap.erase(key)`. -/
def delSorted (k : Nat) (l : List Nat) : List Nat := l.filter (· != k)

/-- _smtMultiStack.h:225-230 `empty`, 233-237 `size`: number of non-empty sub-stacks. -/
def empty (ms : MS S D) : Bool := ms.sorted.length = 0
def size (ms : MS S D) : Nat := ms.sorted.length

/-- SmtMultiStackRec.h:287-291 `clear` with _smtMultiStack.h:240-249 (the dictionary is not touched; no handle
is left, so they start again). -/
def clear (ms : MS S D) : MS S D := { ms with stacks := [], sorted := [], recInfo := [], next := 0 }

/-- SmtStack.h:180-187 `remove(iter)` for an iterator of this very stack. -/
def removeHandle (s : Stack.Stack (Nat × Hyp S D)) (hd : Nat) : Option (Stack.Stack (Nat × Hyp S D)) :=
  if s.cont.any (fun e => e.2.1 == hd) then some { s with cont := s.cont.filter (fun e => e.2.1 != hd) } else none

/-- SmtMultiStackRec.h:347-355: remove the recombined hypothesis; `SmtStack::remove` ignores iterators of other
stacks. -/
def eraseRecombined (ms : MS S D) (key idx : Nat) (stk : Stack.Stack (Nat × Hyp S D)) :
    Option (Stack.Stack (Nat × Hyp S D)) :=
  match lk ms.recInfo idx with
  | some (k', hd) => if k' = key then removeHandle stk hd else some stk
  | none => some stk

/-- SmtMultiStackRec.h:337-402 `pushOnSmtStackIdx` on the sub-stack of key `key`. -/
def pushIdx (ms : MS S D) (key : Nat) (h : Hyp S D) (idx : Nat) : Option (Bool × MS S D) :=
  match lk ms.stacks key with
  | none => none
  | some stk =>
    match eraseRecombined ms key idx stk with
    | none => none
    | some stk1 =>
      -- 359-361
      let lastHyp := stk1.cont.getLast?
      let prev := stk1.cont.length
      -- 364
      match Stack.pushIter stk1 (h.score, (ms.next, h)) with
      | none => none
      | some (ok, stk2) =>
        let ms2 := { ms with stacks := put ms.stacks key stk2, next := ms.next + 1 }
        if ok then
          -- 367-376 (recInfoMapIter is always `end()` here)
          let ms3 := { ms2 with recInfo := put ms.recInfo idx (key, ms.next) }
          if prev = stk2.cont.length then
            -- 379-387
            match lastHyp with
            | none => none
            | some l =>
              match lk ms.dict l.2.2.state with
              | none => none
              | some (idx', _) => some (true, { ms3 with recInfo := del ms3.recInfo idx' })
          else some (true, ms3)
        else some (false, ms2)

/-- SmtMultiStackRec.h:294-334 `pushOnSmtStack` with HypStateDict.h:115-144 `createDictEntry`. -/
def pushOnSmtStack (ms : MS S D) (key : Nat) (h : Hyp S D) : Option (Bool × MS S D) :=
  match lk ms.dict h.state with
  | some (idx, sc) =>
    if sc > h.score then some (false, ms)
    else pushIdx { ms with dict := put ms.dict h.state (idx, h.score) } key h idx
  | none =>
    let idx := ms.dict.length
    pushIdx { ms with dict := put ms.dict h.state (idx, h.score) } key h idx

/-- SmtMultiStackRec.h:129-139: the sub-stack of key `key` is created (empty) and registered if it does not exist. -/
def ensureStack (ms : MS S D) (key : Nat) : MS S D :=
  match lk ms.stacks key with
  | some _ => ms
  | none => { ms with stacks := put ms.stacks key ⟨ms.max, []⟩, sorted := insSorted key ms.sorted }

/-- SmtMultiStackRec.h:121-157 `pushIter` / 160-168 `push`. -/
def push (ms : MS S D) (h : Hyp S D) : Option (Bool × MS S D) :=
  let key := h.cls
  let ms1 := ensureStack ms key
  let prev := ((lk ms1.stacks key).map (·.cont.length)).getD 0
  match pushOnSmtStack ms1 key h with
  | none => none
  | some (true, ms2) =>
    some (true, if prev = 0 then { ms2 with sorted := insSorted key ms2.sorted } else ms2)
  | some (false, ms2) =>
    some (false, if ((lk ms2.stacks key).map (·.cont.length)).getD 0 = 0
      then { ms2 with sorted := delSorted key ms2.sorted } else ms2)

/-- `pos->second.top()` of the sub-stack of key `k`. -/
def topOf (ms : MS S D) (k : Nat) : Option (Elem S D) := (lk ms.stacks k).bind Stack.top
/-- `pos->second.last()` of the sub-stack of key `k`. -/
def lastOf (ms : MS S D) (k : Nat) : Option (Elem S D) := (lk ms.stacks k).bind Stack.last

/-- SmtMultiStackRec.h:190-201 (and _smtMultiStack.h:157-167): the loop over all sub-stacks, keeping a strictly
better hypothesis. `get` is `topOf` or `lastOf`. -/
def bestLoop (get : Nat → Option (Elem S D)) : List Nat → Nat × Elem S D × Int → Option (Nat × Elem S D × Int)
  | [], b => some b
  | k :: ks, b =>
    match get k with
    | none => none
    | some aux => bestLoop get ks (if aux.1 > b.2.2 then (k, aux, aux.1) else b)

/-- SmtMultiStackRec.h:404-410 `eraseRecInfo`: dereferences `find(hypState)`. -/
def eraseRecInfo (ms : MS S D) (st : S) : Option (MS S D) :=
  match lk ms.dict st with
  | none => none
  | some (idx, _) => some { ms with recInfo := del ms.recInfo idx }

/-- Replace the contents of sub-stack `k`, dropping it from the sorted map when empty
(SmtMultiStackRec.h:206-208, 243-245, 273-275). -/
def setCont (ms : MS S D) (k : Nat) (s : Stack.Stack (Nat × Hyp S D)) : MS S D :=
  { ms with stacks := put ms.stacks k s,
            sorted := if s.cont.length = 0 then delSorted k ms.sorted else ms.sorted }

/-- SmtMultiStackRec.h:171-211 `pop`; undefined when there is no non-empty sub-stack. -/
def pop (ms : MS S D) : Option (Elem S D × MS S D) :=
  match ms.sorted with
  | [] => none
  | k0 :: _ =>
    match topOf ms k0 with
    | none => none
    | some t0 =>
      match (if ms.bf then some (k0, t0, t0.1) else bestLoop (topOf ms) ms.sorted (k0, t0, t0.1)) with
      | none => none
      | some (kb, res, _) =>
        match topOf ms kb with
        | none => none
        | some t =>
          match eraseRecInfo ms t.2.2.state with
          | none => none
          | some ms1 =>
            match lk ms1.stacks kb with
            | none => none
            | some stk =>
              match Stack.pop stk with
              | none => none
              | some (_, stk') => some (res, setCont ms1 kb stk')

/-- _smtMultiStack.h:138-170 `top`; `dflt` is the score of a default-constructed hypothesis (`bestScore` is
initialised with `aux.getScore()` before `aux` is assigned). -/
def top (dflt : Int) (ms : MS S D) : Option (Elem S D) :=
  match ms.sorted with
  | [] => none
  | k0 :: _ =>
    match topOf ms k0 with
    | none => none
    | some t0 =>
      if ms.bf then some t0 else (bestLoop (topOf ms) ms.sorted (k0, t0, dflt)).map (·.2.1)

/-- SmtMultiStackRec.h:256-269: the best-first loop of `removeLast`; `pos` is never advanced, so every iteration
compares the last hypothesis of the first sub-stack. -/
def worstLoop (first : Elem S D) (k0 : Nat) : List Nat → Nat × Int → Nat × Int
  | [], b => b
  | _ :: ks, b => worstLoop first k0 ks (if first.1 > b.2 then (k0, first.1) else b)

/-- SmtMultiStackRec.h:228-277 `removeLast`; undefined when there is no non-empty sub-stack. -/
def removeLast (ms : MS S D) : Option (MS S D) :=
  match ms.sorted with
  | [] => none
  | k0 :: ks =>
    match (if ms.bf then some ((k0 :: ks).getLast (by simp))
           else (lastOf ms k0).map (fun l0 => (worstLoop l0 k0 (k0 :: ks) (k0, l0.1)).1)) with
    | none => none
    | some kw =>
      match lastOf ms kw with
      | none => none
      | some l =>
        match eraseRecInfo ms l.2.2.state with
        | none => none
        | some ms1 =>
          match lk ms1.stacks kw with
          | none => none
          | some stk =>
            match Stack.removeLast stk with
            | none => none
            | some stk' => some (setCont ms1 kw stk')

/-- _stackDecoderRec.h:218-224 `clear` (without the word graph): the stacks and then the state dictionary (HypStateDict.h:167-171). -/
def clearAll (ms : MS S D) : MS S D := { clear ms with dict := [] }

/-- The public operations. -/
inductive Op (S D : Type) where
  | push (h : Hyp S D)
  | pop
  | removeLast
  | setBf (b : Bool)
  | setMax (m : Nat)
  | clear
  | clearAll

def step (ms : MS S D) : Op S D → Option (MS S D)
  | .push h => (push ms h).map (·.2)
  | .pop => (pop ms).map (·.2)
  | .removeLast => removeLast ms
  | .setBf b => some (setBf ms b)
  | .setMax m => some (setMaxStackSize ms m)
  | .clear => some (clear ms)
  | .clearAll => some (clearAll ms)

def run (ms : MS S D) : List (Op S D) → Option (MS S D)
  | [] => some ms
  | o :: os => (step ms o).bind (run · os)

end Thot.MultiStack
