import Verif.Proto.Model
import Verif.Socket.Props
/-! C209-C211: requests made through `ThotDecoderClient` and served by thot_server. -/
namespace Thot.Proto
open Thot.Socket

/-! ## Specification: the same requests made directly on the decoder -/

/-- The call of the decoder a request stands for. -/
def evOf (uid : I32) : Call → Option Ev
  | .sendSentPairForOlTrain s r => some (.onlineTrainSentPair uid s r)
  | .sendStrPairForTrainEcm x y => some (.trainEcm uid x y)
  | .sendSentToTranslate s => some (.translateSentence uid s)
  | .sendSentPairVerCov s r => some (.sentPairVerCov uid s r)
  | .startCat s => some (.startCat uid s)
  | .addStrToPref s => some (.addStrToPref uid s)
  | .resetPref => some (.resetPrefix uid)
  | .sendPrintRequest => some .printModels
  | .sendEndServerRequest => some .clearTrans
  | .disconnect => none

/-- What the caller should get from the decoder's answer. -/
def resultOf (a : Ans) : Call → Result
  | .sendSentPairForOlTrain _ _ => if a.ret = 1 then .exception else .done
  | .sendStrPairForTrainEcm _ _ => if a.ret = 1 then .exception else .done
  | .sendPrintRequest => if a.ret = 1 then .exception else .done
  | .sendSentToTranslate _ => .text2 a.s1 a.s2
  | .sendSentPairVerCov _ _ => .text a.s1
  | .startCat _ => .text a.s1
  | .addStrToPref _ => .text a.s1
  | .resetPref => .done
  | .sendEndServerRequest => .done
  | .disconnect => .done

/-- The users of earlier requests. -/
def usersOf (qs : List (I32 × Call)) : List I32 := qs.map (·.1)

/-- The calls a decoder gets for a sequence of requests: its user is initialised before a user's first request. -/
def callsFor (earlier : List I32) (uid : I32) (q : Call) : List Ev :=
  (if uid ∈ earlier then [] else [.initUserPars uid]) ++ (evOf uid q).toList

/-- The requests made directly: results, and all calls received by the decoder. -/
def direct (d : Decoder) : List I32 → List Ev → List (I32 × Call) → List Result × List Ev
  | _, h, [] => ([], h)
  | us, h, (uid, q) :: rest =>
    let before := if uid ∈ us then h else h ++ [.initUserPars uid]
    let r := match evOf uid q with
      | none => .done
      | some e => resultOf (d before e) q
    let t := direct d (uid :: us) (h ++ callsFor us uid q) rest
    (r :: t.1, t.2)

/-- The string arguments of a request. -/
def args : Call → List Str
  | .sendSentPairForOlTrain s r => [s, r]
  | .sendStrPairForTrainEcm x y => [x, y]
  | .sendSentToTranslate s => [s]
  | .sendSentPairVerCov s r => [s, r]
  | .startCat s => [s]
  | .addStrToPref s => [s]
  | _ => []

/-- A C string whose length is an `int`. -/
def CStr (s : Str) : Prop := (∀ b ∈ s, b ≠ 0) ∧ s.length < 2^31

/-- Every `recv` delivers all the bytes it asks for. -/
def Whole (n : Net) : Prop := ∀ k ∈ n.toS ++ n.toC, 2^31 ≤ k

/-- The decoder's output strings are C strings and it can initialise any user. -/
structure Good (d : Decoder) : Prop where
  s1 : ∀ h e, CStr (d h e).s1
  s2 : ∀ h e, CStr (d h e).s2
  init : ∀ h uid, (d h (.initUserPars uid)).ret ≠ 1

/-! ## Reading -/

theorem big_tail (o : List Nat) (h : ∀ k ∈ o, 2^31 ≤ k) : ∀ k ∈ o.tail, 2^31 ≤ k :=
  fun k hk => h k (List.mem_of_mem_tail hk)

theorem big_head (o : List Nat) (h : ∀ k ∈ o, 2^31 ≤ k) (m : Nat) (hm : m ≤ 2^31) : m ≤ o.headD m := by
  cases o with
  | nil => exact Nat.le_refl _
  | cons a o => exact Nat.le_trans hm (h a List.mem_cons_self)

theorem rInt (be be' : Bool) (i : I32) (rest : List Byte) (o : List Nat) (h : ∀ k ∈ o, 2^31 ≤ k) :
    recvInt be' ⟨writeInt be i ++ rest, o⟩ = some (i, ⟨rest, o.tail⟩) :=
  recvInt_full be be' i rest o (big_head o h 4 (by decide))

theorem rStr (be be' : Bool) (s : Str) (rest : List Byte) (o : List Nat) (h : ∀ k ∈ o, 2^31 ≤ k) (hs : CStr s) :
    ∃ o', (∀ k ∈ o', 2^31 ≤ k) ∧
      recvStlStr be' ⟨writeStr be s ++ rest, o⟩ = some ((s.length, s), ⟨rest, o'⟩) := by
  obtain ⟨hz, hl⟩ := hs
  have hN : (BitVec.ofNat 32 s.length).toNat = s.length := by
    rw [BitVec.toNat_ofNat, Nat.mod_eq_of_lt (by omega)]
  have hI : (BitVec.ofNat 32 s.length).toInt = s.length := by
    rw [BitVec.toInt_eq_toNat_of_lt (by rw [hN]; omega), hN]
  unfold recvStlStr
  rw [writeStr, List.append_assoc, rInt be be' _ _ o h]
  simp only [hI, hN]
  rw [if_neg (by omega)]
  by_cases hp : s.length > 0
  · rw [if_pos (by omega)]
    simp only [hp, if_true]
    rw [recv_full s.length s rest rfl o.tail (big_head _ (big_tail o h) _ (by omega))]
    exact ⟨o.tail.tail, big_tail _ (big_tail o h), by simp only [cstr_self s hz]⟩
  · rw [if_neg (by omega)]
    simp only [hp, if_false, List.nil_append]
    have : s = [] := by cases s with | nil => rfl | cons => simp at hp
    subst this
    exact ⟨o.tail, big_tail o h, rfl⟩

theorem arg1_eq (be be' : Bool) (s : Str) (o : List Nat) (h : ∀ k ∈ o, 2^31 ≤ k) (hs : CStr s) :
    arg1 be' ⟨writeAll be [.str s], o⟩ = some s := by
  obtain ⟨o', _, he⟩ := rStr be be' s [] o h hs
  show (recvStlStr be' ⟨writeStr be s ++ [], o⟩).map (·.1.2) = some s
  rw [he]; rfl

theorem arg2_eq (be be' : Bool) (s r : Str) (o : List Nat) (h : ∀ k ∈ o, 2^31 ≤ k) (hs : CStr s) (hr : CStr r) :
    arg2 be' ⟨writeAll be [.str s, .str r], o⟩ = some (s, r) := by
  obtain ⟨o', ho', he⟩ := rStr be be' s (writeStr be r ++ []) o h hs
  obtain ⟨o2, _, he2⟩ := rStr be be' r [] o' ho' hr
  unfold arg2
  show (match recvStlStr be' ⟨writeStr be s ++ (writeStr be r ++ []), o⟩ with
    | none => none
    | some (r, c') => (recvStlStr be' c').map (fun q => (r.2, q.1.2))) = some (s, r)
  rw [he]
  show (recvStlStr be' ⟨writeStr be r ++ [], o'⟩).map (fun q => (s, q.1.2)) = some (s, r)
  rw [he2]; rfl

/-- The stream of the server's answers when `ms` was written: nothing is left after the request's own answer. -/
theorem readCode_eq (be be' : Bool) (i : I32) (o : List Nat) (h : ∀ k ∈ o, 2^31 ≤ k) :
    readCode be' ⟨writeAll be [.int i], o⟩ = some (if i = 1 then .exception else .done, ⟨[], o.tail⟩) := by
  unfold readCode
  show (recvInt be' ⟨writeInt be i ++ [], o⟩).map _ = _
  rw [rInt be be' i [] o h]; rfl

theorem readAck_eq (be be' : Bool) (i : I32) (o : List Nat) (h : ∀ k ∈ o, 2^31 ≤ k) :
    readAck be' ⟨writeAll be [.int i], o⟩ = some (.done, ⟨[], o.tail⟩) := by
  unfold readAck
  show (recvInt be' ⟨writeInt be i ++ [], o⟩).map _ = _
  rw [rInt be be' i [] o h]; rfl

theorem readText_eq (be be' : Bool) (s : Str) (o : List Nat) (h : ∀ k ∈ o, 2^31 ≤ k) (hs : CStr s) :
    ∃ o', readText be' ⟨writeAll be [.str s], o⟩ = some (.text s, ⟨[], o'⟩) := by
  obtain ⟨o', _, he⟩ := rStr be be' s [] o h hs
  refine ⟨o', ?_⟩
  unfold readText
  show (recvStlStr be' ⟨writeStr be s ++ [], o⟩).map _ = _
  rw [he]; rfl

theorem readText2_eq (be be' : Bool) (s r : Str) (o : List Nat) (h : ∀ k ∈ o, 2^31 ≤ k) (hs : CStr s) (hr : CStr r) :
    ∃ o', readText2 be' ⟨writeAll be [.str s, .str r], o⟩ = some (.text2 s r, ⟨[], o'⟩) := by
  obtain ⟨o', ho', he⟩ := rStr be be' s (writeStr be r ++ []) o h hs
  obtain ⟨o2, _, he2⟩ := rStr be be' r [] o' ho' hr
  refine ⟨o2, ?_⟩
  unfold readText2
  show (match recvStlStr be' ⟨writeStr be s ++ (writeStr be r ++ []), o⟩ with
    | none => none
    | some (r, c') => (recvStlStr be' c').map (fun q : (Nat × Str) × Conn => (Result.text2 r.2 q.1.2, q.2))) = _
  rw [he]
  show (recvStlStr be' ⟨writeStr be r ++ [], o'⟩).map (fun q => (Result.text2 s q.1.2, q.2)) = _
  rw [he2]; rfl

/-! ## Serving one request -/

/-- What the server should write for a request. -/
def answer (a : Ans) : Call → List Msg
  | .sendSentPairForOlTrain _ _ => [.int a.ret]
  | .sendStrPairForTrainEcm _ _ => [.int a.ret]
  | .sendPrintRequest => [.int a.ret]
  | .sendSentToTranslate _ => [.str a.s1, .str a.s2]
  | .sendSentPairVerCov _ _ => [.str a.s1]
  | .startCat _ => [.str a.s1]
  | .addStrToPref _ => [.str a.s1]
  | .resetPref => [.int 0]
  | .sendEndServerRequest => [.int 0]
  | .disconnect => []

/-- The request codes. -/
def codeOf : Call → I32
  | .sendSentPairForOlTrain _ _ => cOlTrainPair
  | .sendStrPairForTrainEcm _ _ => cTrainEcm
  | .sendSentToTranslate _ => cTranslateSent
  | .sendSentPairVerCov _ _ => cVerifyCov
  | .startCat _ => cStartCat
  | .addStrToPref _ => cAddStrToPref
  | .resetPref => cResetPref
  | .sendPrintRequest => cPrintModels
  | .sendEndServerRequest => cEndServer
  | .disconnect => cEndClientDialog

theorem writes_eq (uid : I32) (q : Call) :
    clientWrites uid q = .int (codeOf q) :: .int uid :: (args q).map .str := by
  cases q <;> rfl

/-- The server after the decoder's calls `es`. -/
def Srv.calls (s : Srv) (es : List Ev) : Srv := { s with hist := s.hist ++ es }

/-- The answer of the decoder used for the reply. -/
def ansOf (d : Decoder) (h : List Ev) (uid : I32) (q : Call) : Ans :=
  match evOf uid q with
  | none => ⟨0, [], []⟩
  | some e => d h e

theorem ansStr_eq (t : Str) (h : CStr t) : ansStr t = .str t := by
  unfold ansStr; rw [cstr_self t h.1]

theorem switch_eq (d : Decoder) (hg : Good d) (be be' : Bool) (uid : I32) (q : Call) (s : Srv) (o : List Nat)
    (h : ∀ k ∈ o, 2^31 ≤ k) (ha : ∀ t ∈ args q, CStr t) :
    processRequestSwitch d be' uid (codeOf q) ⟨writeAll be ((args q).map .str), o⟩ s =
      some (answer (ansOf d s.hist uid q) q, s.calls (evOf uid q).toList) := by
  cases q with
  | sendSentPairForOlTrain a b =>
    have e := arg2_eq be be' a b o h (ha a (by simp [args])) (ha b (by simp [args]))
    show (arg2 be' ⟨writeAll be [.str a, .str b], o⟩).map _ = _
    rw [e]; rfl
  | sendStrPairForTrainEcm a b =>
    have e := arg2_eq be be' a b o h (ha a (by simp [args])) (ha b (by simp [args]))
    show (arg2 be' ⟨writeAll be [.str a, .str b], o⟩).map _ = _
    rw [e]; rfl
  | sendSentPairVerCov a b =>
    have e := arg2_eq be be' a b o h (ha a (by simp [args])) (ha b (by simp [args]))
    show (arg2 be' ⟨writeAll be [.str a, .str b], o⟩).map _ = _
    rw [e, Option.map_some, ansStr_eq _ (hg.s1 _ _)]; rfl
  | sendSentToTranslate a =>
    have e := arg1_eq be be' a o h (ha a (by simp [args]))
    show (arg1 be' ⟨writeAll be [.str a], o⟩).map _ = _
    rw [e, Option.map_some, ansStr_eq _ (hg.s1 _ _), ansStr_eq _ (hg.s2 _ _)]; rfl
  | startCat a =>
    have e := arg1_eq be be' a o h (ha a (by simp [args]))
    show (arg1 be' ⟨writeAll be [.str a], o⟩).map _ = _
    rw [e, Option.map_some, ansStr_eq _ (hg.s1 _ _)]; rfl
  | addStrToPref a =>
    have e := arg1_eq be be' a o h (ha a (by simp [args]))
    show (arg1 be' ⟨writeAll be [.str a], o⟩).map _ = _
    rw [e, Option.map_some, ansStr_eq _ (hg.s1 _ _)]; rfl
  | resetPref => rfl
  | sendPrintRequest => rfl
  | sendEndServerRequest => rfl
  | disconnect =>
    show some (([] : List Msg), s) = _
    simp [answer, evOf, Srv.calls]

/-- The state of the server after a request. -/
def after (s : Srv) (uid : I32) (q : Call) : Srv :=
  { users := if uid ∈ s.users then s.users else uid :: s.users
    hist := s.hist ++ callsFor s.users uid q
    ended := s.ended || (q == .sendEndServerRequest) }

/-- The history the decoder has seen when the request's own call is made. -/
def histBefore (s : Srv) (uid : I32) : List Ev :=
  if uid ∈ s.users then s.hist else s.hist ++ [.initUserPars uid]

theorem noteEnd_eq (s : Srv) (q : Call) :
    noteEnd (codeOf q) s = { s with ended := s.ended || (q == .sendEndServerRequest) } := by
  cases q with
  | sendEndServerRequest =>
    show ({ s with ended := true } : Srv) = _
    simp
  | _ =>
    show s = _
    cases s
    simp

theorem serve_eq (d : Decoder) (hg : Good d) (be be' : Bool) (uid : I32) (q : Call) (s : Srv) (o : List Nat)
    (h : ∀ k ∈ o, 2^31 ≤ k) (ha : ∀ t ∈ args q, CStr t) :
    serve d be' ⟨writeAll be (clientWrites uid q), o⟩ s =
      some (answer (ansOf d (histBefore s uid) uid q) q, after s uid q) := by
  rw [writes_eq]
  unfold serve
  show (match recvInt be' ⟨writeInt be (codeOf q) ++ (writeInt be uid ++ writeAll be ((args q).map .str)), o⟩ with
    | none => none
    | some (type, c1) =>
      match recvInt be' c1 with
      | none => none
      | some (uid, c2) => dispatch d be' uid type c2 (noteEnd type s)) = _
  rw [rInt be be' _ _ o h]
  show (match recvInt be' ⟨writeInt be uid ++ writeAll be ((args q).map .str), o.tail⟩ with
      | none => none
      | some (uid, c2) => dispatch d be' uid (codeOf q) c2 (noteEnd (codeOf q) s)) = _
  rw [rInt be be' _ _ o.tail (big_tail o h)]
  show dispatch d be' uid (codeOf q) ⟨writeAll be ((args q).map .str), o.tail.tail⟩ (noteEnd (codeOf q) s) = _
  rw [noteEnd_eq]
  have hb := big_tail _ (big_tail o h)
  unfold dispatch initUserParsIfRequired
  by_cases hu : uid ∈ s.users
  · simp only [hu, if_true]
    rw [if_neg (by decide : ¬ thotOk = thotError), switch_eq d hg be be' uid q _ _ hb ha]
    simp [histBefore, after, callsFor, Srv.calls, hu]
  · simp only [hu, if_false]
    have hi : ¬ (d s.hist (.initUserPars uid)).ret = thotError := hg.init _ _
    rw [if_neg hi, switch_eq d hg be be' uid q _ _ hb ha]
    simp [histBefore, after, callsFor, Srv.calls, Srv.call, hu]

theorem reads_eq (d : Decoder) (hg : Good d) (be be' : Bool) (h0 : List Ev) (uid : I32) (q : Call) (o : List Nat)
    (h : ∀ k ∈ o, 2^31 ≤ k) :
    ∃ o', clientReads be' ⟨writeAll be (answer (ansOf d h0 uid q) q), o⟩ q =
      some (resultOf (ansOf d h0 uid q) q, ⟨[], o'⟩) := by
  cases q with
  | sendSentPairForOlTrain a b => exact ⟨_, readCode_eq be be' _ o h⟩
  | sendStrPairForTrainEcm a b => exact ⟨_, readCode_eq be be' _ o h⟩
  | sendPrintRequest => exact ⟨_, readCode_eq be be' _ o h⟩
  | resetPref => exact ⟨_, readAck_eq be be' _ o h⟩
  | sendEndServerRequest => exact ⟨_, readAck_eq be be' _ o h⟩
  | sendSentPairVerCov a b => exact readText_eq be be' _ o h (hg.s1 _ _)
  | startCat a => exact readText_eq be be' _ o h (hg.s1 _ _)
  | addStrToPref a => exact readText_eq be be' _ o h (hg.s1 _ _)
  | sendSentToTranslate a => exact readText2_eq be be' _ _ o h (hg.s1 _ _) (hg.s2 _ _)
  | disconnect => exact ⟨o, rfl⟩

theorem roundTrip_eq (d : Decoder) (hg : Good d) (n : Net) (hn : Whole n) (uid : I32) (q : Call) (s : Srv)
    (ha : ∀ t ∈ args q, CStr t) (he : s.ended = false) :
    roundTrip d n uid q s = some (resultOf (ansOf d (histBefore s uid) uid q) q, after s uid q) := by
  have h1 : ∀ k ∈ n.toS, 2^31 ≤ k := fun k hk => hn k (List.mem_append_left _ hk)
  have h2 : ∀ k ∈ n.toC, 2^31 ≤ k := fun k hk => hn k (List.mem_append_right _ hk)
  obtain ⟨o', hr⟩ := reads_eq d hg n.beS n.beC (histBefore s uid) uid q n.toC h2
  unfold roundTrip
  rw [he, serve_eq d hg n.beC n.beS uid q s n.toS h1 ha]
  simp only [Bool.false_eq_true, if_false, hr, Option.map_some]

/-! ## C209 -/

/-- A request: its connection, user and contents. -/
abbrev Req := Net × I32 × Call

/-- The requests whose arguments are C strings. -/
def Proper (r : Req) : Prop := ∀ t ∈ args r.2.2, CStr t

/-- Not the request that stops the server. -/
def Plain (r : Req) : Prop := r.2.2 ≠ .sendEndServerRequest

/-- Full statement of C209: whatever the network does, clients (one after another) get what the decoder would have given
them directly, and the decoder gets their calls. -/
def C209_full : Prop := ∀ (d : Decoder), Good d → ∀ rs : List Req, (∀ r ∈ rs, Proper r ∧ Plain r) →
  ∃ s, session d rs .start = some ((direct d [] [] (rs.map (·.2))).1, s) ∧
    s.hist = (direct d [] [] (rs.map (·.2))).2

theorem direct_users (d : Decoder) (us us' : List I32) (h : List Ev) (qs : List (I32 × Call))
    (he : ∀ u, u ∈ us ↔ u ∈ us') : direct d us h qs = direct d us' h qs := by
  induction qs generalizing us us' h with
  | nil => rfl
  | cons p qs ih =>
    have h1 : (p.1 ∈ us) = (p.1 ∈ us') := propext (he p.1)
    have e2 : ∀ hh, direct d (p.1 :: us) hh qs = direct d (p.1 :: us') hh qs :=
      fun hh => ih _ _ _ (fun u => by simp [he u])
    simp only [direct, callsFor, h1, e2]

theorem session_eq (d : Decoder) (hg : Good d) (rs : List Req) (s : Srv) (he : s.ended = false)
    (hr : ∀ r ∈ rs, Proper r ∧ Plain r ∧ Whole r.1) :
    ∃ s', session d rs s = some ((direct d s.users s.hist (rs.map (·.2))).1, s') ∧
      s'.hist = (direct d s.users s.hist (rs.map (·.2))).2 ∧ s'.ended = false := by
  induction rs generalizing s with
  | nil => exact ⟨s, rfl, rfl, he⟩
  | cons r rs ih =>
    obtain ⟨hp, hpl, hw⟩ := hr r List.mem_cons_self
    have hea : (after s r.2.1 r.2.2).ended = false := by
      simp only [after, he, Bool.false_or]
      exact beq_eq_false_iff_ne.2 hpl
    obtain ⟨s', h1, h2, h3⟩ := ih (after s r.2.1 r.2.2) hea (fun x hx => hr x (List.mem_cons_of_mem _ hx))
    have hus : ∀ u, u ∈ (after s r.2.1 r.2.2).users ↔ u ∈ r.2.1 :: s.users := by
      intro u
      simp only [after]
      by_cases hm : r.2.1 ∈ s.users
      · simp only [hm, if_true, List.mem_cons]
        exact ⟨Or.inr, fun h => h.elim (fun h => h ▸ hm) id⟩
      · simp only [hm, if_false]
    rw [direct_users d _ _ _ _ hus] at h1 h2
    refine ⟨s', ?_, ?_, h3⟩
    · show (match roundTrip d r.1 r.2.1 r.2.2 s with
        | none => none
        | some (x, s') => (session d rs s').map (fun y : List Result × Srv => (x :: y.1, y.2))) = _
      rw [roundTrip_eq d hg r.1 hw r.2.1 r.2.2 s hp he]
      simp only [h1, Option.map_some, List.map_cons]
      refine congrArg some ?_
      simp only [direct, ansOf, histBefore, after]
      cases r.2.2 <;> rfl
    · rw [h2]
      simp only [List.map_cons, direct, after]

/-- **C209 (partial).** If every `recv` delivers all the bytes it asks for, then for every sequence of requests of any
users, whatever the byte orders of client and server hosts, each client gets exactly the result the decoder gives to
that call at that point, and the decoder gets exactly the clients' calls with their arguments, each user being
initialised once, before its first call. Missing: split deliveries (see the counterexample); concurrent requests. -/
theorem C209_remote_calls_partial (d : Decoder) (hg : Good d) (rs : List Req)
    (hr : ∀ r ∈ rs, Proper r ∧ Plain r ∧ Whole r.1) :
    ∃ s, session d rs .start = some ((direct d [] [] (rs.map (·.2))).1, s) ∧
      s.hist = (direct d [] [] (rs.map (·.2))).2 := by
  obtain ⟨s, h1, h2, _⟩ := session_eq d hg rs .start rfl hr
  exact ⟨s, h1, h2⟩

/-- A decoder that echoes its argument and counts its calls. -/
def echo : Decoder := fun h e => match e with
  | .translateSentence _ s => ⟨0, s, []⟩
  | .onlineTrainSentPair _ _ _ => ⟨if h.length < 3 then 0 else 1, [], []⟩
  | _ => ⟨0, [], []⟩

/-- Two users: results. -/
example : ((session echo [(⟨false, false, [], []⟩, 5, .startCat [97]), (⟨false, true, [], []⟩, 5, .sendSentPairForOlTrain [97] [98]),
      (⟨true, false, [], []⟩, 7, .sendSentPairForOlTrain [97] [98]), (⟨true, true, [], []⟩, 7, .sendSentToTranslate [99])]
      .start).map (·.1)) = some [.text [], .done, .exception, .text2 [99] []] := by decide +kernel

/-- **C209 is false of the code** when a delivery is split: the server translates "a" instead of "ab". -/
theorem C209_counterexample : ¬ C209_full := by
  intro h
  obtain ⟨s, h1, h2⟩ := h (fun _ _ => ⟨0, [], []⟩) ⟨fun _ _ => ⟨by simp, by decide⟩, fun _ _ => ⟨by simp, by decide⟩, fun _ _ => by decide⟩
    [(⟨false, false, [4, 4, 4, 1], []⟩, 0, .sendSentToTranslate [97, 98])]
    (by
      intro r hr
      simp only [List.mem_cons, List.not_mem_nil, or_false] at hr
      subst hr
      refine ⟨?_, by intro hc; simp at hc⟩
      intro t ht
      simp only [args, List.mem_cons, List.not_mem_nil, or_false] at ht
      subst ht
      exact ⟨by decide, by decide⟩)
  have hs : (session (fun _ _ => ⟨0, [], []⟩) [(⟨false, false, [4, 4, 4, 1], []⟩, 0, .sendSentToTranslate [97, 98])]
      .start).map (·.2.hist) = some [.initUserPars 0, .translateSentence 0 [97]] := by decide +kernel
  rw [h1] at hs
  simp only [Option.map_some, Option.some.injEq] at hs
  rw [hs] at h2
  exact absurd h2 (by decide +kernel)

/-! ## C210: initialisation of users and shutdown -/

/-- Full statement of C210: the decoder gets no call of a user whose parameters could not be initialised: whatever the
decoder answers, a call in the server's history on behalf of `uid` comes after a successful initialisation. -/
def C210_full : Prop := ∀ (d : Decoder) (rs : List Req) (l : List Result) (s : Srv),
  (∀ r ∈ rs, Proper r ∧ Whole r.1) → session d rs .start = some (l, s) →
  ∀ (uid : I32) (t : Str) (h1 h2 : List Ev), s.hist = h1 ++ [.startCat uid t] ++ h2 →
    ∃ h3 h4, h1 = h3 ++ [.initUserPars uid] ++ h4 ∧ (d h3 (.initUserPars uid)).ret ≠ 1

/-- A decoder that cannot initialise any user. -/
def badInit : Decoder := fun _ e => match e with
  | .initUserPars _ => ⟨1, [], []⟩
  | _ => ⟨0, [], []⟩

/-- **C210 is false of the code**: the user is remembered before its initialisation is tried; the request that
triggered it (here a `disconnect`, which does not wait for an answer) is dropped, but the user's next request is
processed without parameters. -/
theorem C210_counterexample : ¬ C210_full := by
  intro h
  have hs : ((session badInit [(⟨false, false, [], []⟩, 7, .disconnect), (⟨false, false, [], []⟩, 7, .startCat [97])]
      .start)) = some ([.done, .text []], ⟨[7], [.initUserPars 7, .startCat 7 [97]], false⟩) := by decide +kernel
  obtain ⟨h3, h4, he, hd⟩ := h badInit _ _ _ (by
      intro r hr
      simp only [List.mem_cons, List.not_mem_nil, or_false] at hr
      rcases hr with rfl | rfl
      · exact ⟨by intro t ht; simp [args] at ht, by intro k hk; simp at hk⟩
      · refine ⟨?_, by intro k hk; simp at hk⟩
        intro t ht
        simp only [args, List.mem_cons, List.not_mem_nil, or_false] at ht
        subst ht
        exact ⟨by decide, by decide⟩) hs 7 [97] [.initUserPars 7] [] rfl
  exact hd rfl

/-- The server's accept loop for connections on which anything may arrive: byte order, bytes and deliveries are
arbitrary. It stops after a request to end. -/
def serveAll (d : Decoder) (be : Bool) : List Conn → Srv → Option Srv
  | [], s => some s
  | c :: cs, s =>
    if s.ended then some s
    else
      match serve d be c s with
      | none => none
      | some r => serveAll d be cs r.2

/-- The user on whose behalf a call is made. -/
def userOf : Ev → Option I32
  | .initUserPars _ => none
  | .onlineTrainSentPair u _ _ => some u
  | .trainEcm u _ _ => some u
  | .translateSentence u _ => some u
  | .sentPairVerCov u _ _ => some u
  | .startCat u _ => some u
  | .addStrToPref u _ => some u
  | .resetPrefix u => some u
  | .printModels => none
  | .clearTrans => none

/-- Users are initialised at most once, those remembered exactly, and before their calls. -/
structure Inv (s : Srv) : Prop where
  once : ∀ u, s.hist.count (.initUserPars u) = if u ∈ s.users then 1 else 0
  before : ∀ h1 h2 e u, s.hist = h1 ++ [e] ++ h2 → userOf e = some u → .initUserPars u ∈ h1

theorem split_snoc {α : Type} (h : List α) (x : α) (h1 h2 : List α) (e : α) (he : h ++ [x] = h1 ++ [e] ++ h2) :
    (h2 = [] ∧ h1 = h ∧ e = x) ∨ (∃ h2', h2 = h2' ++ [x] ∧ h = h1 ++ [e] ++ h2') := by
  rcases List.eq_nil_or_concat h2 with rfl | ⟨l, a, rfl⟩
  · left
    rw [List.append_nil] at he
    have := List.append_inj_right' he rfl
    have h' := List.append_inj_left' he rfl
    exact ⟨rfl, h'.symm, by simpa using this.symm⟩
  · right
    rw [List.concat_eq_append, ← List.append_assoc] at he
    have h1 := List.append_inj_right' he rfl
    have h' := List.append_inj_left' he rfl
    refine ⟨l, ?_, h'⟩
    rw [List.concat_eq_append]
    simp at h1
    rw [h1]

theorem inv_call (s : Srv) (e : Ev) (h : Inv s) (hi : ∀ u, e ≠ .initUserPars u)
    (hu : ∀ u, userOf e = some u → u ∈ s.users) : Inv (s.call e) := by
  refine ⟨?_, ?_⟩
  · intro u
    show (s.hist ++ [e]).count _ = _
    have h0 : [e].count (.initUserPars u) = 0 :=
      List.count_eq_zero.2 (by simp only [List.mem_singleton]; exact fun hc => hi u hc.symm)
    rw [List.count_append, h0, Nat.add_zero]
    exact h.once u
  · intro h1 h2 e' u he hu'
    rcases split_snoc s.hist e h1 h2 e' he with ⟨_, rfl, rfl⟩ | ⟨h2', _, hs⟩
    · have := h.once u
      rw [if_pos (hu u hu')] at this
      exact List.count_pos_iff.1 (by omega)
    · exact h.before h1 h2' e' u hs hu'

theorem inv_init (d : Decoder) (uid : I32) (s : Srv) (h : Inv s) :
    Inv (initUserParsIfRequired d uid s).2 ∧ uid ∈ (initUserParsIfRequired d uid s).2.users := by
  unfold initUserParsIfRequired
  by_cases hu : uid ∈ s.users
  · rw [if_pos hu]; exact ⟨h, hu⟩
  · rw [if_neg hu]
    refine ⟨⟨?_, ?_⟩, List.mem_cons_self⟩
    · intro u
      show (s.hist ++ [Ev.initUserPars uid]).count (.initUserPars u) = if u ∈ uid :: s.users then 1 else 0
      rw [List.count_append, h.once u]
      by_cases hx : u = uid
      · subst hx
        rw [if_neg hu, if_pos List.mem_cons_self]
        simp
      · have : ¬ Ev.initUserPars uid = Ev.initUserPars u := fun hc => hx (by injection hc with h; exact h.symm)
        rw [List.count_eq_zero.2 (by simp only [List.mem_singleton]; exact fun hc => this hc.symm)]
        simp only [List.mem_cons, hx, false_or, Nat.add_zero]
    · intro h1 h2 e' u he hu'
      rcases split_snoc s.hist (.initUserPars uid) h1 h2 e' he with ⟨_, rfl, rfl⟩ | ⟨h2', _, hs⟩
      · simp [userOf] at hu'
      · exact h.before h1 h2' e' u hs hu'

/-- The switch either leaves the decoder alone or makes one call, of the given user. -/
theorem switch_call (d : Decoder) (be : Bool) (uid type : I32) (c : Conn) (s : Srv) (r : List Msg × Srv)
    (h : processRequestSwitch d be uid type c s = some r) :
    r.2 = s ∨ ∃ e, r.2 = s.call e ∧ (∀ u, e ≠ .initUserPars u) ∧ (∀ u, userOf e = some u → u = uid) := by
  have m : ∀ {α : Type} (o : Option α) (f : α → List Msg × Srv), o.map f = some r → ∃ a, r = f a := by
    intro α o f ho
    cases o with
    | none => cases ho
    | some a => exact ⟨a, by injection ho with ho; exact ho.symm⟩
  unfold processRequestSwitch at h
  by_cases h1 : type = cOlTrainPair
  · rw [if_pos h1] at h
    obtain ⟨a, rfl⟩ := m _ _ h
    exact .inr ⟨_, rfl, fun u hc => (by cases hc), fun u hu => by simp only [userOf, Option.some.injEq] at hu; exact hu.symm⟩
  rw [if_neg h1] at h
  by_cases h2 : type = cTrainEcm
  · rw [if_pos h2] at h
    obtain ⟨a, rfl⟩ := m _ _ h
    exact .inr ⟨_, rfl, fun u hc => (by cases hc), fun u hu => by simp only [userOf, Option.some.injEq] at hu; exact hu.symm⟩
  rw [if_neg h2] at h
  by_cases h3 : type = cTranslateSent
  · rw [if_pos h3] at h
    obtain ⟨a, rfl⟩ := m _ _ h
    exact .inr ⟨_, rfl, fun u hc => (by cases hc), fun u hu => by simp only [userOf, Option.some.injEq] at hu; exact hu.symm⟩
  rw [if_neg h3] at h
  by_cases h4 : type = cTranslateSentHypinfo
  · rw [if_pos h4] at h
    obtain ⟨a, rfl⟩ := m _ _ h
    exact .inr ⟨_, rfl, fun u hc => (by cases hc), fun u hu => by simp only [userOf, Option.some.injEq] at hu; exact hu.symm⟩
  rw [if_neg h4] at h
  by_cases h5 : type = cVerifyCov
  · rw [if_pos h5] at h
    obtain ⟨a, rfl⟩ := m _ _ h
    exact .inr ⟨_, rfl, fun u hc => (by cases hc), fun u hu => by simp only [userOf, Option.some.injEq] at hu; exact hu.symm⟩
  rw [if_neg h5] at h
  by_cases h6 : type = cStartCat
  · rw [if_pos h6] at h
    obtain ⟨a, rfl⟩ := m _ _ h
    exact .inr ⟨_, rfl, fun u hc => (by cases hc), fun u hu => by simp only [userOf, Option.some.injEq] at hu; exact hu.symm⟩
  rw [if_neg h6] at h
  by_cases h7 : type = cAddStrToPref
  · rw [if_pos h7] at h
    obtain ⟨a, rfl⟩ := m _ _ h
    exact .inr ⟨_, rfl, fun u hc => (by cases hc), fun u hu => by simp only [userOf, Option.some.injEq] at hu; exact hu.symm⟩
  rw [if_neg h7] at h
  by_cases h8 : type = cResetPref
  · rw [if_pos h8] at h
    injection h with h
    subst h
    exact .inr ⟨_, rfl, fun u hc => (by cases hc), fun u hu => by simp only [userOf, Option.some.injEq] at hu; exact hu.symm⟩
  rw [if_neg h8] at h
  by_cases h9 : type = cPrintModels
  · rw [if_pos h9] at h
    injection h with h
    subst h
    exact .inr ⟨_, rfl, fun u hc => (by cases hc), fun u hu => by simp [userOf] at hu⟩
  rw [if_neg h9] at h
  by_cases h10 : type = cEndServer
  · rw [if_pos h10] at h
    injection h with h
    subst h
    exact .inr ⟨_, rfl, fun u hc => (by cases hc), fun u hu => by simp [userOf] at hu⟩
  rw [if_neg h10] at h
  injection h with h
  subst h
  exact .inl rfl

theorem inv_ended (s : Srv) (h : Inv s) (b : Bool) : Inv { s with ended := b } := ⟨h.once, h.before⟩

theorem inv_noteEnd (type : I32) (s : Srv) (h : Inv s) : Inv (noteEnd type s) := by
  unfold noteEnd
  by_cases ht : type = cEndServer
  · rw [if_pos ht]; exact inv_ended s h true
  · rw [if_neg ht]; exact h

theorem inv_serve (d : Decoder) (be : Bool) (c : Conn) (s : Srv) (h : Inv s) (r : List Msg × Srv)
    (hr : serve d be c s = some r) : Inv r.2 := by
  unfold serve at hr
  cases h1 : recvInt be c with
  | none => rw [h1] at hr; cases hr
  | some x =>
    obtain ⟨type, c1⟩ := x
    rw [h1] at hr
    simp only at hr
    cases h2 : recvInt be c1 with
    | none => rw [h2] at hr; cases hr
    | some y =>
      obtain ⟨uid, c2⟩ := y
      rw [h2] at hr
      simp only at hr
      obtain ⟨hi, hu⟩ := inv_init d uid (noteEnd type s) (inv_noteEnd type s h)
      unfold dispatch at hr
      by_cases hf : (initUserParsIfRequired d uid (noteEnd type s)).1 = thotError
      · rw [if_pos hf] at hr
        injection hr with hr
        subst hr
        exact hi
      · rw [if_neg hf] at hr
        rcases switch_call d be uid type c2 _ r hr with he | ⟨e, he, hn, hw⟩
        · rw [he]; exact hi
        · rw [he]
          exact inv_call _ e hi hn (fun u hx => by rw [hw u hx]; exact hu)

theorem inv_serveAll (d : Decoder) (be : Bool) (cs : List Conn) (s s' : Srv) (h : Inv s)
    (hr : serveAll d be cs s = some s') : Inv s' := by
  induction cs generalizing s with
  | nil => injection hr with hr; subst hr; exact h
  | cons c cs ih =>
    unfold serveAll at hr
    cases he : s.ended with
    | true => rw [he, if_pos rfl] at hr; injection hr with hr; subst hr; exact h
    | false =>
      rw [he, if_neg (by decide)] at hr
      cases h1 : serve d be c s with
      | none => rw [h1] at hr; cases hr
      | some r => rw [h1] at hr; exact ih r.2 (inv_serve d be c s h r h1) hr

theorem inv_start : Inv .start := ⟨fun u => by simp [Srv.start], fun h1 h2 e u he _ => by
  have := congrArg List.length he
  simp [Srv.start] at this⟩

/-- **C210 (partial).** Whatever bytes arrive on any number of connections, in whatever pieces: the decoder is asked to
initialise each user at most once, and every call it gets on behalf of a user comes after the initialisation of that
user was asked for. Missing: that the initialisation succeeded (see the counterexample). -/
theorem C210_users_initialised_partial (d : Decoder) (be : Bool) (cs : List Conn) (s : Srv)
    (h : serveAll d be cs .start = some s) :
    (∀ u, s.hist.count (.initUserPars u) ≤ 1) ∧
    ∀ h1 h2 e u, s.hist = h1 ++ [e] ++ h2 → userOf e = some u → .initUserPars u ∈ h1 := by
  have hi := inv_serveAll d be cs _ _ inv_start h
  refine ⟨fun u => ?_, hi.before⟩
  rw [hi.once u]
  by_cases hu : u ∈ s.users
  · rw [if_pos hu]; omega
  · rw [if_neg hu]; omega

example : (serveAll echo false [⟨writeAll true [.int 6, .int 3, .str [97]], []⟩, ⟨writeAll false [.int 8, .int 3], []⟩,
    ⟨writeAll false [.int 99, .int 4], []⟩] .start).map (·.hist) =
    some [.initUserPars 3, .startCat 3 [97], .resetPrefix 3, .initUserPars 4] := by decide +kernel

/-! ## C211: one request per connection; the end of the server -/

/-- Full statement of C211: the requests a client makes on one connection are all performed and answered. -/
def C211_full : Prop := ∀ (d : Decoder), Good d → ∀ (n : Net), Whole n → ∀ (uid : I32) (q : Call) (qs : List Call),
  (∀ x ∈ q :: qs, (∀ t ∈ args x, CStr t) ∧ x ≠ .sendEndServerRequest ∧ x ≠ .disconnect) →
  ∃ l s, dialogue d n uid q qs .start = some (some l, s) ∧
    s.hist = .initUserPars uid :: (q :: qs).filterMap (evOf uid)

theorem recvInt_empty (be : Bool) (o : List Nat) : recvInt be ⟨[], o⟩ = none := by
  have h : recv 4 ⟨[], o⟩ = ([], ⟨[], o.tail⟩) := by simp [recv]
  unfold recvInt
  rw [h]
  cases be <;> rfl

theorem recvStl_empty (be : Bool) (o : List Nat) : recvStlStr be ⟨[], o⟩ = none := by
  unfold recvStlStr; rw [recvInt_empty]

theorem reads_empty (be : Bool) (o : List Nat) (q : Call) (hq : q ≠ .disconnect) : clientReads be ⟨[], o⟩ q = none := by
  cases q with
  | disconnect => exact absurd rfl hq
  | sendSentPairForOlTrain _ _ => simp only [clientReads, readCode, recvInt_empty, Option.map_none]
  | sendStrPairForTrainEcm _ _ => simp only [clientReads, readCode, recvInt_empty, Option.map_none]
  | sendPrintRequest => simp only [clientReads, readCode, recvInt_empty, Option.map_none]
  | resetPref => simp only [clientReads, readAck, recvInt_empty, Option.map_none]
  | sendEndServerRequest => simp only [clientReads, readAck, recvInt_empty, Option.map_none]
  | sendSentToTranslate _ => simp only [clientReads, readText2, recvStl_empty]
  | sendSentPairVerCov _ _ => simp only [clientReads, readText, recvStl_empty, Option.map_none]
  | startCat _ => simp only [clientReads, readText, recvStl_empty, Option.map_none]
  | addStrToPref _ => simp only [clientReads, readText, recvStl_empty, Option.map_none]

/-- **C211.** Only the first request on a connection is performed: the second one is never seen by the decoder and its
answer is read from a closed connection (uninitialised memory). -/
theorem C211_second_request_unanswered (d : Decoder) (hg : Good d) (n : Net) (hn : Whole n) (uid : I32) (q q2 : Call)
    (qs : List Call) (s : Srv) (ha : ∀ t ∈ args q, CStr t) (h2 : q2 ≠ .disconnect) :
    dialogue d n uid q (q2 :: qs) s = some (none, after s uid q) := by
  have h1 : ∀ k ∈ n.toS, 2^31 ≤ k := fun k hk => hn k (List.mem_append_left _ hk)
  have h3 : ∀ k ∈ n.toC, 2^31 ≤ k := fun k hk => hn k (List.mem_append_right _ hk)
  obtain ⟨o', hr⟩ := reads_eq d hg n.beS n.beC (histBefore s uid) uid q n.toC h3
  unfold dialogue
  rw [serve_eq d hg n.beC n.beS uid q s n.toS h1 ha]
  simp only [Option.map_some, readAnswers, hr, reads_empty n.beC o' q2 h2, Option.map_none]

theorem C211_counterexample : ¬ C211_full := by
  intro h
  have hg : Good (fun _ _ => ⟨0, [], []⟩) :=
    ⟨fun _ _ => ⟨by simp, by decide⟩, fun _ _ => ⟨by simp, by decide⟩, fun _ _ => by decide⟩
  have hn : Whole ⟨false, false, [], []⟩ := by intro k hk; simp at hk
  obtain ⟨l, s, h1, _⟩ := h _ hg ⟨false, false, [], []⟩ hn 0 .resetPref [.resetPref] (by
    intro x hx
    simp only [List.mem_cons, List.not_mem_nil, or_false, or_self] at hx
    subst hx
    exact ⟨by intro t ht; simp [args] at ht, (by intro hc; cases hc), (by intro hc; cases hc)⟩)
  rw [C211_second_request_unanswered _ hg _ hn 0 .resetPref .resetPref [] .start (by intro t ht; simp [args] at ht)
    (by intro hc; cases hc)] at h1
  simp at h1

theorem session_ended (d : Decoder) (rs : List Req) (s : Srv) (he : s.ended = true) :
    session d rs s = some (rs.map (fun _ => .exception), s) := by
  induction rs with
  | nil => rfl
  | cons r rs ih =>
    show (match roundTrip d r.1 r.2.1 r.2.2 s with
        | none => none
        | some (x, s') => (session d rs s').map (fun y : List Result × Srv => (x :: y.1, y.2))) = _
    have : roundTrip d r.1 r.2.1 r.2.2 s = some (.exception, s) := by
      unfold roundTrip; rw [he, if_pos rfl]
    rw [this]
    simp only [ih, Option.map_some, List.map_cons]

theorem session_append (d : Decoder) (rs qs : List Req) (s s1 : Srv) (l : List Result)
    (h : session d rs s = some (l, s1)) :
    session d (rs ++ qs) s = (session d qs s1).map (fun y => (l ++ y.1, y.2)) := by
  induction rs generalizing s l with
  | nil =>
    injection h with h
    injection h with h1 h2
    subst h1 h2
    simp
  | cons r rs ih =>
    change (match roundTrip d r.1 r.2.1 r.2.2 s with
        | none => none
        | some (x, s') => (session d rs s').map (fun y : List Result × Srv => (x :: y.1, y.2))) = _ at h
    show (match roundTrip d r.1 r.2.1 r.2.2 s with
        | none => none
        | some (x, s') => (session d (rs ++ qs) s').map (fun y : List Result × Srv => (x :: y.1, y.2))) = _
    cases h1 : roundTrip d r.1 r.2.1 r.2.2 s with
    | none => rw [h1] at h; cases h
    | some x =>
      obtain ⟨x, s'⟩ := x
      rw [h1] at h
      simp only at h ⊢
      cases h2 : session d rs s' with
      | none => rw [h2] at h; cases h
      | some y =>
        rw [h2] at h
        simp only [Option.map_some, Option.some.injEq, Prod.mk.injEq] at h
        obtain ⟨rfl, rfl⟩ := h
        rw [ih s' y.1 h2, Option.map_map]
        rfl

/-- **C211.** The request to end the server is acknowledged (after the decoder's translation data have been cleared) and
is the last one: the requests before it were served normally, the ones after it are refused and the decoder sees
none of them. -/
theorem C211_end_server (d : Decoder) (hg : Good d) (rs qs : List Req) (n : Net) (uid : I32)
    (hr : ∀ r ∈ rs, Proper r ∧ Plain r ∧ Whole r.1) (hn : Whole n) :
    ∃ s, session d (rs ++ [(n, uid, .sendEndServerRequest)] ++ qs) .start =
        some ((direct d [] [] (rs.map (·.2))).1 ++ [.done] ++ qs.map (fun _ => .exception), s) ∧
      ∃ b, s.hist = (direct d [] [] (rs.map (·.2))).2 ++ b ++ [.clearTrans] ∧ (b = [] ∨ b = [.initUserPars uid]) := by
  obtain ⟨s1, h1, h2, h3⟩ := session_eq d hg rs .start rfl hr
  have h4 : session d [(n, uid, .sendEndServerRequest)] s1 = some ([.done], after s1 uid .sendEndServerRequest) := by
    show (match roundTrip d n uid .sendEndServerRequest s1 with
        | none => none
        | some (x, s') => (session d [] s').map (fun y : List Result × Srv => (x :: y.1, y.2))) = _
    rw [roundTrip_eq d hg n hn uid _ s1 (by intro t ht; simp [args] at ht) h3]
    rfl
  have h5 : (after s1 uid .sendEndServerRequest).ended = true := by simp [after]
  refine ⟨after s1 uid .sendEndServerRequest, ?_, ?_⟩
  · rw [List.append_assoc, session_append d rs _ .start s1 _ h1, session_append d _ qs s1 _ _ h4,
      session_ended d qs _ h5]
    simp [List.append_assoc, Srv.start]
  · show ∃ b, s1.hist ++ callsFor s1.users uid .sendEndServerRequest = _ ∧ _
    rw [h2]
    refine ⟨if uid ∈ s1.users then [] else [.initUserPars uid], ?_, ?_⟩
    · simp [callsFor, evOf, Srv.start]
    · by_cases hu : uid ∈ s1.users
      · simp [hu]
      · simp [hu]

example : ((session echo [(⟨false, false, [], []⟩, 5, .startCat [97]), (⟨false, false, [], []⟩, 6, .sendEndServerRequest),
    (⟨false, false, [], []⟩, 5, .startCat [97])] .start).map (·.1)) = some [.text [], .done, .exception] := by
  decide +kernel

end Thot.Proto
