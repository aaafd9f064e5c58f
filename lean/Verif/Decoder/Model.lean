/-! Model of the concurrency control of `ThotDecoder` (`src/stack_dec/ThotDecoder.cc`): the mutexes, the
condition variable and the counter that let a server process requests of many users in parallel.

The contents of the models and of the data of each user are abstract: `M` is the type of the state shared
by all users (`tdCommonVars`, `tdState`), `U` the type of the data of one user (`tdPerUserVarsVec[idx]`,
`totalPrefixVec[idx]`), `O` the type of results.  The steps of the operations on them are arbitrary
functions; every step is one atomic action and threads are interleaved in an arbitrary order. -/

namespace Thot.Decoder

abbrev User := Nat

/-- The mutexes of `ThotDecoder.h:180-183`; those of `per_user_mut` are apart. -/
inductive Mtx | atomicOp | nonAtomic | idxMap | preproc
  deriving DecidableEq, Repr

/-- Instructions of the threads. -/
inductive Instr (M U O : Type)
  /-- `pthread_mutex_lock`, `pthread_mutex_unlock` -/
  | lock (m : Mtx)
  | unlock (m : Mtx)
  /-- the same on `per_user_mut[idx]` -/
  | lockUser
  | unlockUser
  /-- the loop of `wait_on_non_atomic_op_cond`, `ThotDecoder.cc:2850-2862` -/
  | wait
  /-- `++non_atomic_ops_running`, `ThotDecoder.cc:2877` -/
  | inc
  /-- `ThotDecoder.cc:2889-2893`: decrease the counter and broadcast if it becomes zero -/
  | dec
  /-- the body of `get_vecidx_for_user_id`, `ThotDecoder.cc:501-536` -/
  | look (u : User)
  /-- a step of an operation on the shared state and the data of the user -/
  | act (f : M → U → M × U × O)
  /-- a step that only reads the shared state -/
  | peek (f : M → O)
  /-- a step that only changes the shared state -/
  | mact (f : M → M)
  /-- the part of `clearTrans` that removes the users, `ThotDecoder.cc:2679-2687` -/
  | reset
  /-- the body of `release_user_data`, `ThotDecoder.cc:338-346` -/
  | release (u : User)

/-- A step of the body of an operation of a user. -/
inductive Item (M U O : Type)
  | act (f : M → U → M × U × O)
  /-- a step inside `preprocLine` or `postprocLine`, `ThotDecoder.cc:3229-3255` -/
  | pre (f : M → U → M × U × O)
  /-- another call of `get_vecidx_for_user_id` (as in `initUserPars`) -/
  | look

/-- The same for the operations that may run in parallel: they do not change the shared state. -/
inductive UItem (M U O : Type)
  | act (f : M → U → U × O)
  | pre (f : M → U → U × O)

/-- Calls of member functions of `ThotDecoder`. -/
inductive Op (M U O : Type)
  /-- `onlineTrainSentPair` (`1893-2001`), `trainEcm` (`2112-2160`) and `initUserPars` (`1032-1078`) when it
  returns `THOT_OK` -/
  | atomic (u : User) (body : List (Item M U O))
  /-- `initUserPars` when it returns `THOT_ERROR`, `ThotDecoder.cc:1066` -/
  | initError (u : User) (body : List (Item M U O))
  /-- `clearTrans`, `2666-2694` -/
  | clear (body : List (M → M))
  /-- `printModels`, `2697-2772` -/
  | print (body : List (M → O))
  /-- `translateSentence` (`2163-2217`), `sentPairVerCov` (`2309-2364`), `startCat` (`2367-2441`),
  `addStrToPref` (`2444-2471`), `setPref` (`2556-2594`) and `resetPrefix` (`2597-2626`) -/
  | session (u : User) (body : List (UItem M U O))
  /-- `release_user_data`, `334-349` -/
  | release (u : User)

variable {M U O : Type}

/-- `get_vecidx_for_user_id`, `ThotDecoder.cc:497-542`. -/
def lookCode (u : User) : List (Instr M U O) := [.lock .idxMap, .look u, .unlock .idxMap]

def itemCode (u : User) : Item M U O → List (Instr M U O)
  | .act f => [.act f]
  | .pre f => [.lock .preproc, .act f, .unlock .preproc]
  | .look => lookCode u

/-- A step that does not change the shared state as a step. -/
def lift (f : M → U → U × O) : M → U → M × U × O := fun m x => (m, f m x)

def uitemCode : UItem M U O → List (Instr M U O)
  | .act f => [.act (lift f)]
  | .pre f => [.lock .preproc, .act (lift f), .unlock .preproc]

/-- The instructions of each operation. -/
def code : Op M U O → List (Instr M U O)
  | .atomic u body => [.lock .atomicOp, .lock .nonAtomic, .wait] ++ lookCode u ++ body.flatMap (itemCode u) ++
      [.unlock .nonAtomic, .unlock .atomicOp]
  | .initError u body => [.lock .atomicOp, .lock .nonAtomic, .wait] ++ lookCode u ++ body.flatMap (itemCode u)
  | .clear body => [.lock .atomicOp, .lock .nonAtomic, .wait] ++ body.map .mact ++
      [.reset, .unlock .nonAtomic, .unlock .atomicOp]
  | .print body => [.lock .atomicOp] ++ body.map .peek ++ [.unlock .atomicOp]
  | .session u body => [.lock .nonAtomic, .inc, .unlock .nonAtomic] ++ lookCode u ++ [.lockUser] ++
      body.flatMap uitemCode ++ [.unlockUser, .lock .nonAtomic, .dec, .unlock .nonAtomic]
  | .release u => [.lock .idxMap, .release u, .unlock .idxMap]

/-- Whether a thread is running, blocked in `pthread_cond_wait`, or woken up and waiting for the mutex. -/
inductive Mode | run | asleep | woken
  deriving DecidableEq, Repr

/-- A thread: its operation, the instructions that remain, `idx`, its mode, and its results. -/
structure Thread (M U O : Type) where
  op : Op M U O
  code : List (Instr M U O)
  reg : Nat
  mode : Mode
  out : List O

/-- The data members of the decoder.  `users` are the keys of `userIdToIdx` in the order of their indices
(the size of the vectors is its length); `umem` is indexed by `idx`; `freed` are the indices of released data
(`idxDataReleased`). -/
structure Shared (M U : Type) where
  held : Mtx → Option Nat
  heldU : Nat → Option Nat
  cnt : Int
  users : List User
  mem : M
  umem : Nat → U
  freed : List Nat

/-- The state of the decoder and of its threads. -/
structure St (M U O : Type) where
  sh : Shared M U
  th : List (Thread M U O)

/-- Function update. -/
def upd {α β : Type} [DecidableEq α] (f : α → β) (a : α) (b : β) : α → β := fun x => if x = a then b else f x

/-- `pthread_cond_broadcast`. -/
def wake (th : Thread M U O) : Thread M U O :=
  match th.mode with
  | .asleep => { th with mode := .woken }
  | _ => th

/-- Execution of one instruction by the thread number `t`; `c` are the instructions that follow.  `none`: the
thread is blocked.  The flag tells whether the condition variable is signalled.  `initU` gives the data of a
new user (`init_idx_data`, `ThotDecoder.cc:352-469`). -/
def exec (initU : M → U) (s : Shared M U) (t : Nat) (th : Thread M U O) (c : List (Instr M U O)) :
    Instr M U O → Option (Shared M U × Thread M U O × Bool)
  | .lock m =>
    if s.held m = none then some ({ s with held := upd s.held m (some t) }, { th with code := c }, false) else none
  | .unlock m => some ({ s with held := upd s.held m none }, { th with code := c }, false)
  | .lockUser =>
    if s.heldU th.reg = none then
      some ({ s with heldU := upd s.heldU th.reg (some t) }, { th with code := c }, false)
    else none
  | .unlockUser => some ({ s with heldU := upd s.heldU th.reg none }, { th with code := c }, false)
  | .wait =>
    if s.cnt > 0 then some ({ s with held := upd s.held .nonAtomic none }, { th with mode := .asleep }, false)
    else some (s, { th with code := c }, false)
  | .inc => some ({ s with cnt := s.cnt + 1 }, { th with code := c }, false)
  | .dec => some ({ s with cnt := s.cnt - 1 }, { th with code := c }, s.cnt - 1 == 0)
  | .look u =>
    if u ∈ s.users then some (s, { th with code := c, reg := s.users.idxOf u }, false)
    else
      some ({ s with users := s.users ++ [u], umem := upd s.umem s.users.length (initU s.mem) },
        { th with code := c, reg := s.users.length }, false)
  | .act f =>
    let r := f s.mem (s.umem th.reg)
    some ({ s with mem := r.1, umem := upd s.umem th.reg r.2.1 }, { th with code := c, out := th.out ++ [r.2.2] }, false)
  | .peek f => some (s, { th with code := c, out := th.out ++ [f s.mem] }, false)
  | .mact f => some ({ s with mem := f s.mem }, { th with code := c }, false)
  | .reset => some ({ s with users := [], freed := [] }, { th with code := c }, false)
  | .release u =>
    some ({ s with freed := if u ∈ s.users then s.users.idxOf u :: s.freed else s.freed }, { th with code := c }, false)

/-- One step of a thread; a thread that was woken up has to get the mutex first. -/
def tstep (initU : M → U) (s : Shared M U) (t : Nat) (th : Thread M U O) : Option (Shared M U × Thread M U O × Bool) :=
  match th.mode with
  | .asleep => none
  | .woken =>
    if s.held .nonAtomic = none then some ({ s with held := upd s.held .nonAtomic (some t) }, { th with mode := .run }, false)
    else none
  | .run =>
    match th.code with
    | [] => none
    | i :: c => exec initU s t th c i

/-- One step of the thread number `t`. -/
def step (initU : M → U) (s : St M U O) (t : Nat) : Option (St M U O) :=
  match s.th[t]? with
  | none => none
  | some th =>
    match tstep initU s.sh t th with
    | none => none
    | some (sh, th', b) => some ⟨sh, (if b then s.th.map wake else s.th).set t th'⟩

/-- A spurious wakeup of a thread blocked in `pthread_cond_wait`. -/
def spurious (s : St M U O) (t : Nat) : Option (St M U O) :=
  match s.th[t]? with
  | none => none
  | some th =>
    match th.mode with
    | .asleep => some { s with th := s.th.set t { th with mode := .woken } }
    | _ => none

/-- The initial state: no mutex is held, and there is one thread for each operation. -/
def start (mem : M) (users : List User) (umem : Nat → U) (ops : List (Op M U O)) : St M U O :=
  { sh := ⟨fun _ => none, fun _ => none, 0, users, mem, umem, []⟩
    th := ops.map fun op => ⟨op, code op, 0, .run, []⟩ }

/-- Executions under an arbitrary scheduler. -/
inductive Run (initU : M → U) : St M U O → St M U O → Prop
  | refl (s : St M U O) : Run initU s s
  | step {s s' s'' : St M U O} {t : Nat} : Run initU s s' → Decoder.step initU s' t = some s'' → Run initU s s''
  | spurious {s s' s'' : St M U O} {t : Nat} : Run initU s s' → Decoder.spurious s' t = some s'' → Run initU s s''

/-- The thread has finished. -/
def Thread.done (th : Thread M U O) : Prop := th.code = []

end Thot.Decoder
