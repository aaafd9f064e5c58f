/-! Model of the main loop of `thot_server` and of its worker threads (`src/stack_dec/thot_server.cc`): accepting
connections, creating a detached thread for each request, counting the threads and waiting for them when the
server is shut down.

The processing of a request (`process_request_switch`) is abstract: a number of steps that use the socket, after
which it returns or throws an exception (both paths of `process_request` are the same two calls,
`thot_server.cc:434-436` and `440-441`).  What the main thread does for one connection until the thread is
created touches only its own variables and is one step. -/

namespace Thot.Server

/-- What happens with a connection. -/
inductive Conn
  /-- `accept` fails, `thot_server.cc:262-266` -/
  | acceptError
  /-- the request type cannot be received, `270-277` -/
  | typeError
  /-- the user identifier cannot be received, `284-292`; the flag: the request was `END_SERVER` -/
  | userError (fin : Bool)
  /-- `initUserPars` fails, `295-301` -/
  | initError (fin : Bool)
  /-- `pthread_create` fails, `316-322` -/
  | createError (fin : Bool)
  /-- a thread is created, which takes `work` steps -/
  | ok (fin : Bool) (work : Nat)
  deriving DecidableEq, Repr

/-- Where the main thread is. -/
inductive MPc
  /-- `thot_server.cc:256-315`, the head of the loop -/
  | loop
  /-- `increase_num_threads_var`, `557-564` -/
  | incLock | incAdd | incUnlock
  /-- `wait_on_num_threads_var_cond`, `584-606` -/
  | waitLock | waitTest | asleep | woken
  /-- `340-344` -/
  | destroy | done
  deriving DecidableEq, Repr

/-- Where a worker thread is: `process_request`, `386-443`, and `decrease_num_threads_var`, `567-581`. -/
inductive WPc
  | work (n : Nat) | close | decLock | dec | decUnlock | done
  deriving DecidableEq, Repr

/-- A thread; the number of its connection stands for the file descriptor. -/
structure Worker where
  fd : Nat
  pc : WPc
  deriving DecidableEq, Repr

inductive Who | main | worker (i : Nat)
  deriving DecidableEq, Repr

structure St where
  /-- the connections that will arrive -/
  conns : List Conn
  /-- `end_server` -/
  fin : Bool
  main : MPc
  ws : List Worker
  /-- the owner of `num_threads_var_mut` -/
  mtx : Option Who
  /-- `num_threads` -/
  cnt : Int
  /-- the file descriptors returned by `accept` -/
  accepted : List Nat
  /-- the file descriptors given to `close`, in order -/
  closed : List Nat
  /-- the mutex has been destroyed -/
  destroyed : Bool
  deriving DecidableEq, Repr

def start (conns : List Conn) : St := ⟨conns, false, .loop, [], none, 0, [], [], false⟩

/-- The body of the loop up to `pthread_create`, `thot_server.cc:258-322`. -/
def handle (s : St) (cs : List Conn) : Conn → St
  | .acceptError => { s with conns := cs }
  | .typeError =>
    { s with conns := cs, accepted := s.accepted ++ [s.accepted.length], closed := s.closed ++ [s.accepted.length] }
  | .userError f =>
    { s with conns := cs, fin := s.fin || f, accepted := s.accepted ++ [s.accepted.length],
             closed := s.closed ++ [s.accepted.length] }
  | .initError f =>
    { s with conns := cs, fin := s.fin || f, accepted := s.accepted ++ [s.accepted.length],
             closed := s.closed ++ [s.accepted.length] }
  | .createError f => { s with conns := cs, fin := s.fin || f, accepted := s.accepted ++ [s.accepted.length] }
  | .ok f n =>
    { s with conns := cs, fin := s.fin || f, accepted := s.accepted ++ [s.accepted.length],
             ws := s.ws ++ [⟨s.accepted.length, .work n⟩], main := .incLock }

/-- One step of the main thread; `none`: it is blocked (or it has returned). -/
def stepMain (s : St) : Option St :=
  match s.main with
  | .loop =>
    if s.fin then some { s with main := .waitLock }
    else
      match s.conns with
      | [] => none
      | c :: cs => some (handle s cs c)
  | .incLock => if s.mtx = none then some { s with mtx := some .main, main := .incAdd } else none
  | .incAdd => some { s with cnt := s.cnt + 1, main := .incUnlock }
  | .incUnlock => some { s with mtx := none, main := .loop }
  | .waitLock => if s.mtx = none then some { s with mtx := some .main, main := .waitTest } else none
  | .waitTest =>
    if s.cnt > 0 then some { s with mtx := none, main := .asleep } else some { s with main := .destroy }
  | .asleep => none
  | .woken => if s.mtx = none then some { s with mtx := some .main, main := .waitTest } else none
  | .destroy => some { s with destroyed := true, main := .done }
  | .done => none

/-- `pthread_cond_broadcast` (only the main thread waits). -/
def wake : MPc → MPc
  | .asleep => .woken
  | m => m

/-- One step of the worker number `i`. -/
def stepWorker (s : St) (i : Nat) : Option St :=
  match s.ws[i]? with
  | none => none
  | some w =>
    match w.pc with
    | .work 0 => some { s with ws := s.ws.set i { w with pc := .close } }
    | .work (n + 1) => some { s with ws := s.ws.set i { w with pc := .work n } }
    | .close => some { s with ws := s.ws.set i { w with pc := .decLock }, closed := s.closed ++ [w.fd] }
    | .decLock =>
      if s.mtx = none then some { s with mtx := some (.worker i), ws := s.ws.set i { w with pc := .dec } } else none
    | .dec =>
      some { s with cnt := s.cnt - 1, ws := s.ws.set i { w with pc := .decUnlock },
                    main := if s.cnt - 1 = 0 then wake s.main else s.main }
    | .decUnlock => some { s with mtx := none, ws := s.ws.set i { w with pc := .done } }
    | .done => none

def step (s : St) : Who → Option St
  | .main => stepMain s
  | .worker i => stepWorker s i

/-- A spurious wakeup of the main thread. -/
def spurious (s : St) : Option St :=
  match s.main with
  | .asleep => some { s with main := .woken }
  | _ => none

/-- Executions with `n` steps and `k` spurious wakeups. -/
inductive Run : St → Nat → Nat → St → Prop
  | refl (s : St) : Run s 0 0 s
  | step {s s' s'' : St} {n k : Nat} {w : Who} : Run s n k s' → Server.step s' w = some s'' → Run s (n + 1) k s''
  | spurious {s s' s'' : St} {n k : Nat} : Run s n k s' → Server.spurious s' = some s'' → Run s n (k + 1) s''

end Thot.Server
