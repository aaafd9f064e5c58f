import Verif.Socket.Model
/-!
Model of the client/server protocol: the requests of /repo/src/stack_dec/ThotDecoderClient.cc and their processing by
/repo/src/stack_dec/thot_server.cc (`start_server`, `get_request_type`, `get_user_id`, `init_user_pars_if_required`,
`process_request_switch`) over the socket functions of `Verif.Socket.Model`.

The decoder (`ThotDecoder`) is an oracle: its answer to a call is an arbitrary function of the calls it has received
before (`hist`) and of the call. Simplifications: requests are served one after another (a client starts once the
previous one has got its answer; concurrency is the subject of `Verif.Server`); `accept`, `bind`, thread creation succeed;
exceptions of the socket functions (error returns of `recv` and `write`) are not modelled; verbosity and messages printed
are left out. `none`: a value that was not received is used (uninitialised memory).
-/
namespace Thot.Proto
open Thot.Socket

abbrev Str := List Byte
abbrev I32 := BitVec 32

/-- The member functions of the decoder called by the server, with their arguments. -/
inductive Ev where
  | initUserPars (uid : I32)
  | onlineTrainSentPair (uid : I32) (src ref : Str)
  | trainEcm (uid : I32) (x y : Str)
  | translateSentence (uid : I32) (src : Str)
  | sentPairVerCov (uid : I32) (src ref : Str)
  | startCat (uid : I32) (src : Str)
  | addStrToPref (uid : I32) (s : Str)
  | resetPrefix (uid : I32)
  | printModels
  | clearTrans
  deriving DecidableEq

/-- What a call of the decoder gives back: the return code and up to two strings. -/
structure Ans where
  ret : I32
  s1 : Str
  s2 : Str
  deriving DecidableEq

/-- The decoder: answer to a call after a history of calls. -/
abbrev Decoder := List Ev → Ev → Ans

/-- ErrorDefs.h:31-32. -/
def thotOk : I32 := 0
def thotError : I32 := 1

/-! ## client_server_defs.h:41-51 -/
def cVerifyCov : I32 := 1
def cTranslateSent : I32 := 2
def cTranslateSentHypinfo : I32 := 3
def cOlTrainPair : I32 := 4
def cTrainEcm : I32 := 5
def cStartCat : I32 := 6
def cAddStrToPref : I32 := 7
def cResetPref : I32 := 8
def cPrintModels : I32 := 9
def cEndClientDialog : I32 := 10
def cEndServer : I32 := 11

/-- The requests of `ThotDecoderClient`. -/
inductive Call where
  | sendSentPairForOlTrain (src ref : Str)
  | sendStrPairForTrainEcm (x y : Str)
  | sendSentToTranslate (src : Str)
  | sendSentPairVerCov (src ref : Str)
  | startCat (src : Str)
  | addStrToPref (s : Str)
  | resetPref
  | sendPrintRequest
  | sendEndServerRequest
  | disconnect
  deriving DecidableEq

/-- ThotDecoderClient.cc:69-241: what the request writes before it waits for an answer. `disconnect` waits for none. -/
def clientWrites (uid : I32) : Call → List Msg
  | .sendSentPairForOlTrain s r => [.int cOlTrainPair, .int uid, .str s, .str r]
  | .sendStrPairForTrainEcm x y => [.int cTrainEcm, .int uid, .str x, .str y]
  | .sendSentToTranslate s => [.int cTranslateSent, .int uid, .str s]
  | .sendSentPairVerCov s r => [.int cVerifyCov, .int uid, .str s, .str r]
  | .startCat s => [.int cStartCat, .int uid, .str s]
  | .addStrToPref s => [.int cAddStrToPref, .int uid, .str s]
  | .resetPref => [.int cResetPref, .int uid]
  | .sendPrintRequest => [.int cPrintModels, .int uid]
  | .sendEndServerRequest => [.int cEndServer, .int uid]
  | .disconnect => [.int cEndClientDialog, .int uid]

/-- The outcome of a request for the caller: an exception, completion, or strings put in the output arguments. -/
inductive Result where
  | exception
  | done
  | text (t : Str)
  | text2 (t info : Str)
  deriving DecidableEq

/-- `int ret=recvInt(fileDesc); if(ret==THOT_ERROR) throw` (ThotDecoderClient.cc:79-81, 100-102, 216-218). -/
def readCode (be : Bool) (c : Conn) : Option (Result × Conn) :=
  (recvInt be c).map (fun r => (if r.1 = thotError then .exception else .done, r.2))

/-- `recvInt(fileDesc)`, the value being ignored (ThotDecoderClient.cc:203, 230). -/
def readAck (be : Bool) (c : Conn) : Option (Result × Conn) :=
  (recvInt be c).map (fun r => (.done, r.2))

/-- `recvStlStr(fileDesc,translatedSentence)`. -/
def readText (be : Bool) (c : Conn) : Option (Result × Conn) :=
  (recvStlStr be c).map (fun r => (.text r.1.2, r.2))

/-- Two strings (ThotDecoderClient.cc:121-122). -/
def readText2 (be : Bool) (c : Conn) : Option (Result × Conn) :=
  match recvStlStr be c with
  | none => none
  | some (r, c') => (recvStlStr be c').map (fun q => (.text2 r.2 q.1.2, q.2))

/-- ThotDecoderClient.cc:69-241: how the answer is read. -/
def clientReads (be : Bool) (c : Conn) : Call → Option (Result × Conn)
  | .sendSentPairForOlTrain _ _ => readCode be c
  | .sendStrPairForTrainEcm _ _ => readCode be c
  | .sendSentToTranslate _ => readText2 be c
  | .sendSentPairVerCov _ _ => readText be c
  | .startCat _ => readText be c
  | .addStrToPref _ => readText be c
  | .resetPref => readAck be c
  | .sendPrintRequest => readCode be c
  | .sendEndServerRequest => readAck be c
  | .disconnect => some (.done, c)

/-- The server: users seen (`user_set`), calls made to the decoder so far, `end_server`. -/
structure Srv where
  users : List I32
  hist : List Ev
  ended : Bool
  deriving DecidableEq

def Srv.start : Srv := ⟨[], [], false⟩

/-- A call of the decoder. -/
def Srv.call (s : Srv) (e : Ev) : Srv := { s with hist := s.hist ++ [e] }

/-- thot_server.cc:586-601 `init_user_pars_if_required`: (return code, server). The user is stored before its parameters
are initialised. -/
def initUserParsIfRequired (d : Decoder) (uid : I32) (s : Srv) : I32 × Srv :=
  if uid ∈ s.users then (thotOk, s)
  else ((d s.hist (.initUserPars uid)).ret, ({ s with users := uid :: s.users }).call (.initUserPars uid))

/-- Reading one string argument (thot_server.cc:495-552: `recvStlStr(sockd,stlStr)`). -/
def arg1 (be : Bool) (c : Conn) : Option Str := (recvStlStr be c).map (·.1.2)

/-- Reading two string arguments. -/
def arg2 (be : Bool) (c : Conn) : Option (Str × Str) :=
  match recvStlStr be c with
  | none => none
  | some (r, c') => (recvStlStr be c').map (fun q => (r.2, q.1.2))

/-- `writeStr(sockd,result.c_str())`: the characters up to the first NUL. -/
def ansStr (t : Str) : Msg := .str (cstr t)

/-- thot_server.cc:475-583 `process_request_switch`: (messages written to the client, server). The exception thrown
after an error code only ends the thread. -/
def processRequestSwitch (d : Decoder) (be : Bool) (uid type : I32) (c : Conn) (s : Srv) : Option (List Msg × Srv) :=
  if type = cOlTrainPair then
    (arg2 be c).map (fun a => ([.int (d s.hist (.onlineTrainSentPair uid a.1 a.2)).ret],
      s.call (.onlineTrainSentPair uid a.1 a.2)))
  else if type = cTrainEcm then
    (arg2 be c).map (fun a => ([.int (d s.hist (.trainEcm uid a.1 a.2)).ret], s.call (.trainEcm uid a.1 a.2)))
  else if type = cTranslateSent then
    (arg1 be c).map (fun a => ([ansStr (d s.hist (.translateSentence uid a)).s1,
      ansStr (d s.hist (.translateSentence uid a)).s2], s.call (.translateSentence uid a)))
  else if type = cTranslateSentHypinfo then
    (arg1 be c).map (fun a => ([ansStr (d s.hist (.translateSentence uid a)).s1,
      ansStr (d s.hist (.translateSentence uid a)).s2], s.call (.translateSentence uid a)))
  else if type = cVerifyCov then
    (arg2 be c).map (fun a => ([ansStr (d s.hist (.sentPairVerCov uid a.1 a.2)).s1],
      s.call (.sentPairVerCov uid a.1 a.2)))
  else if type = cStartCat then
    (arg1 be c).map (fun a => ([ansStr (d s.hist (.startCat uid a)).s1], s.call (.startCat uid a)))
  else if type = cAddStrToPref then
    (arg1 be c).map (fun a => ([ansStr (d s.hist (.addStrToPref uid a)).s1], s.call (.addStrToPref uid a)))
  else if type = cResetPref then some ([.int thotOk], s.call (.resetPrefix uid))
  else if type = cPrintModels then some ([.int (d s.hist .printModels).ret], s.call .printModels)
  else if type = cEndServer then some ([.int thotOk], s.call .clearTrans)
  else some ([], s)

/-- thot_server.cc:275-282: `if(request_type==END_SERVER) end_server=true`. -/
def noteEnd (type : I32) (s : Srv) : Srv := if type = cEndServer then { s with ended := true } else s

/-- The part of the loop body of `start_server` after the two integers have been read (thot_server.cc:281-330 and
`process_request` 418-472): exactly one request is processed, then the connection is closed. -/
def dispatch (d : Decoder) (be : Bool) (uid type : I32) (c : Conn) (s : Srv) : Option (List Msg × Srv) :=
  if (initUserParsIfRequired d uid s).1 = thotError then some ([], (initUserParsIfRequired d uid s).2)
  else processRequestSwitch d be uid type c (initUserParsIfRequired d uid s).2

/-- One turn of the accept loop (thot_server.cc:253-345) for a connection: the messages written before it is closed. -/
def serve (d : Decoder) (be : Bool) (c : Conn) (s : Srv) : Option (List Msg × Srv) :=
  match recvInt be c with
  | none => none
  | some (type, c1) =>
    match recvInt be c1 with
    | none => none
    | some (uid, c2) => dispatch d be uid type c2 (noteEnd type s)

/-- The network and hosts of one connection: byte orders of client and server, bytes delivered by each `recv`. -/
structure Net where
  beC : Bool
  beS : Bool
  toS : List Nat
  toC : List Nat

/-- A client connects, makes the request and gets the result (`thot_client.cc:90-155` does just this). Once the server
has ended the connection is refused: `connect` throws. -/
def roundTrip (d : Decoder) (n : Net) (uid : I32) (q : Call) (s : Srv) : Option (Result × Srv) :=
  if s.ended then some (.exception, s)
  else
    match serve d n.beS ⟨writeAll n.beC (clientWrites uid q), n.toS⟩ s with
    | none => none
    | some (ms, s') => (clientReads n.beC ⟨writeAll n.beS ms, n.toC⟩ q).map (fun r => (r.1, s'))

/-- Clients one after another. -/
def session (d : Decoder) : List (Net × I32 × Call) → Srv → Option (List Result × Srv)
  | [], s => some ([], s)
  | (n, uid, q) :: rest, s =>
    match roundTrip d n uid q s with
    | none => none
    | some (r, s') => (session d rest s').map (fun x => (r :: x.1, x.2))

/-- The requests of a client that keeps its connection: the answers are read one after another from what the server has
written. -/
def readAnswers (be : Bool) : List Call → Conn → Option (List Result)
  | [], _ => some []
  | q :: qs, c =>
    match clientReads be c q with
    | none => none
    | some (r, c') => (readAnswers be qs c').map (r :: ·)

/-- A client that connects once and makes the requests `q :: qs` on that connection. The server's turn for the
connection ends after the first one; what is written for the others is never read. -/
def dialogue (d : Decoder) (n : Net) (uid : I32) (q : Call) (qs : List Call) (s : Srv) :
    Option (Option (List Result) × Srv) :=
  (serve d n.beS ⟨writeAll n.beC (clientWrites uid q), n.toS⟩ s).map
    (fun r => (readAnswers n.beC (q :: qs) ⟨writeAll n.beS r.1, n.toC⟩, r.2))

end Thot.Proto
