import Verif.Vocab.Model
/-!
Model of `UserNameToUserIdMap` (src/stack_dec/UserNameToUserIdMap.{h,cc}) under concurrent calls: any number of threads,
each executing the statements of `idForUserName` and `genNewUserNameIdPair` one at a time, interleaved arbitrarily. The
mutex `atomic_op_mut` is held by at most one thread; `pthread_mutex_lock` is enabled when nobody holds it.
`std::map<std::string,int>` is an association list with distinct keys; overflow of `int` is not modelled.
-/
namespace Thot.UserId

abbrev Str := List Char
abbrev Tid := Nat

/-- The two public calls. -/
inductive Call where
  | id (name : Str)
  | gen
  deriving DecidableEq

/-- Where a thread is. -/
inductive Pc where
  /-- outside of any call -/
  | idle
  /-- before `pthread_mutex_lock` (UserNameToUserIdMap.cc:48, 79) -/
  | want (c : Call)
  /-- before `find(username)` (line 53) -/
  | find (name : Str)
  /-- before `id=strToIntMap.size()` (line 62) -/
  | size (name : Str)
  /-- before `strToIntMap[username]=id` (line 63) -/
  | store (name : Str) (id : Nat)
  /-- before the test of candidate `number` (lines 90-100) -/
  | genTry (number : Nat)
  /-- before `new_id=strToIntMap.size()` (line 107) -/
  | genSize (name : Str)
  /-- before `strToIntMap[str]=new_id` (line 108) -/
  | genStore (name : Str) (id : Nat)
  /-- before `pthread_mutex_unlock` (lines 67, 118), the result of the call is known -/
  | unlock (c : Call) (name : Str) (id : Nat)
  deriving DecidableEq

/-- A completed call: what was called, and the user name and identifier it returned (for `idForUserName` the name is the
argument). -/
structure Done where
  tid : Tid
  call : Call
  name : Str
  id : Nat
  deriving DecidableEq

/-- Global state; `log` lists the completed calls in the order of their completion (not part of the program). -/
structure State where
  lock : Option Tid
  map : List (Str × Nat)
  pc : Tid → Pc
  log : List Done

/-- UserNameToUserIdMap.cc:37-41 constructor. -/
def init : State := ⟨none, [], fun _ => .idle, []⟩

def setPc (pc : Tid → Pc) (t : Tid) (p : Pc) : Tid → Pc := fun u => if u = t then p else pc u

/-- First statement after the lock. -/
def enter : Call → Pc
  | .id name => .find name
  | .gen => .genTry 0

/-- One statement of thread `t` (UserNameToUserIdMap.cc:44-70, 73-122). -/
inductive Step (t : Tid) : State → State → Prop where
  | call (s : State) (c : Call) : s.pc t = .idle → Step t s { s with pc := setPc s.pc t (.want c) }
  | lock (s : State) (c : Call) : s.pc t = .want c → s.lock = none →
      Step t s { s with lock := some t, pc := setPc s.pc t (enter c) }
  | found (s : State) (name : Str) (i : Nat) : s.pc t = .find name → AMap.lk s.map name = some i →
      Step t s { s with pc := setPc s.pc t (.unlock (.id name) name i) }
  | notFound (s : State) (name : Str) : s.pc t = .find name → AMap.lk s.map name = none →
      Step t s { s with pc := setPc s.pc t (.size name) }
  | size (s : State) (name : Str) : s.pc t = .size name →
      Step t s { s with pc := setPc s.pc t (.store name s.map.length) }
  | store (s : State) (name : Str) (i : Nat) : s.pc t = .store name i →
      Step t s { s with map := AMap.put s.map name i, pc := setPc s.pc t (.unlock (.id name) name i) }
  | genNext (s : State) (n : Nat) : s.pc t = .genTry n → (AMap.lk s.map (Vocab.showNat n)).isSome →
      Step t s { s with pc := setPc s.pc t (.genTry (n + 1)) }
  | genHit (s : State) (n : Nat) : s.pc t = .genTry n → AMap.lk s.map (Vocab.showNat n) = none →
      Step t s { s with pc := setPc s.pc t (.genSize (Vocab.showNat n)) }
  | genSize (s : State) (name : Str) : s.pc t = .genSize name →
      Step t s { s with pc := setPc s.pc t (.genStore name s.map.length) }
  | genStore (s : State) (name : Str) (i : Nat) : s.pc t = .genStore name i →
      Step t s { s with map := AMap.put s.map name i, pc := setPc s.pc t (.unlock .gen name i) }
  | unlock (s : State) (c : Call) (name : Str) (i : Nat) : s.pc t = .unlock c name i →
      Step t s { s with lock := none, pc := setPc s.pc t .idle, log := s.log ++ [⟨t, c, name, i⟩] }

/-- Reachable by any interleaving. -/
inductive Reach : State → Prop where
  | init : Reach init
  | step {s s' : State} (t : Tid) : Reach s → Step t s s' → Reach s'

end Thot.UserId
