import Verif.Common.MMap
/-!
Model of `SmtStack<HYPOTHESIS>` (src/stack_dec/SmtStack.h, src/stack_dec/_smtStack.h).
The container is `std::multiset<HYPOTHESIS,HypSortCriterion>` ordered by decreasing score (HypSortCriterion.h:44-47).
An element is a pair (score, hypothesis).  Undefined behaviour is `none`.
-/
namespace Thot.Stack
open MMap

variable {α : Type}

/-- _smtStack.h:77-78: `maxStackSize`, `container`. -/
structure Stack (α : Type) where
  max : Nat
  cont : List (Int × α)

/-- _smtStack.h:86-95: constructor. -/
def new : Stack α := ⟨1024, []⟩

/-- _smtStack.h:98-102 `setMaxStackSize`: only the bound changes. -/
def setMaxStackSize (s : Stack α) (m : Nat) : Stack α := { s with max := m }

/-- _smtStack.h:112-116 `top`: dereferences `begin()`, undefined when empty. -/
def top (s : Stack α) : Option (Int × α) := s.cont.head?

/-- _smtStack.h:119-127 `last`: undefined when empty. -/
def last (s : Stack α) : Option (Int × α) := s.cont.getLast?

/-- _smtStack.h:130-141. -/
def empty (s : Stack α) : Bool := s.cont.length = 0
def size (s : Stack α) : Nat := s.cont.length

/-- _smtStack.h:144-152 `clear`. -/
def clear (s : Stack α) : Stack α := { s with cont := [] }

/-- SmtStack.h:190-201 `removeLast`: nothing when empty; `erase(pos--)` decrements `begin()` when there is a single
element, which is undefined. -/
def removeLast (s : Stack α) : Option (Stack α) :=
  if s.cont.length = 0 then some s
  else if s.cont.length = 1 then none
  else some { s with cont := s.cont.dropLast }

/-- SmtStack.h:109: `while(size>maxStackSize) removeLast()`; the fuel exceeds the number of iterations. -/
def trimLoop : Nat → Stack α → Option (Stack α)
  | 0, _ => none
  | f + 1, s => if s.cont.length > s.max then (removeLast s).bind (trimLoop f) else some s

/-- `container.insert(hyp)` followed by `if(size>maxStackSize) removeLast()` (SmtStack.h:130-139, 147-150). -/
def insertTrim (s : Stack α) (h : Int × α) : Option (Stack α) :=
  let s' := { s with cont := ins h.1 h.2 s.cont }
  if s'.cont.length > s'.max then removeLast s' else some s'

/-- SmtStack.h:101-153 `pushIter`; the result is (not `end()`, new stack). -/
def pushIter (s : Stack α) (h : Int × α) : Option (Bool × Stack α) :=
  if s.max = 0 then some (false, s)
  else
    match trimLoop (s.cont.length + 1) s with
    | none => none
    | some s =>
      if !empty s then
        match last s with
        | none => none
        | some hl =>
          if s.cont.length = s.max ∧ hl.1 ≥ h.1 then some (false, s)
          else (insertTrim s h).map (fun s => (true, s))
      else (insertTrim s h).map (fun s => (true, s))

/-- SmtStack.h:156-164 `push`. -/
def push (s : Stack α) (h : Int × α) : Option (Bool × Stack α) := pushIter s h

/-- SmtStack.h:167-177 `pop`: undefined when empty. -/
def pop (s : Stack α) : Option ((Int × α) × Stack α) :=
  match s.cont with
  | [] => none
  | e :: r => some (e, { s with cont := r })

/-- A sequence of pushes. -/
def pushAll (s : Stack α) : List (Int × α) → Option (Stack α)
  | [] => some s
  | h :: hs => (push s h).bind (fun r => pushAll r.2 hs)

/-- Pops until empty. -/
def popAll : Nat → Stack α → Option (List (Int × α))
  | 0, _ => some []
  | f + 1, s => if empty s then some [] else (pop s).bind (fun r => (popAll f r.2).map (r.1 :: ·))

/-- The public operations. -/
inductive Op (α : Type) where
  | push (h : Int × α)
  | pop
  | removeLast
  | setMax (m : Nat)
  | clear

def step (s : Stack α) : Op α → Option (Stack α)
  | .push h => (push s h).map (·.2)
  | .pop => (pop s).map (·.2)
  | .removeLast => removeLast s
  | .setMax m => some (setMaxStackSize s m)
  | .clear => some (clear s)

def run (s : Stack α) : List (Op α) → Option (Stack α)
  | [] => some s
  | o :: os => (step s o).bind (run · os)

end Thot.Stack
