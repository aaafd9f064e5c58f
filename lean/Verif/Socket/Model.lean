/-!
Model of the message functions of /repo/src/nlp_common/BasicSocketUtils.cc (`writeInt`, `writeStr`, `recvInt`,
`recvStlStr`, `recvStr`).

A connection is the sequence of bytes that are still to be received (everything the peer has written and will write) and
an oracle that says how many bytes each `recv` call delivers: POSIX `recv` on a stream socket returns at least one byte
(zero only at the end of the stream) and at most the number requested, the actual number being decided by the network.
Simplifications: `write` is modelled as transferring all its bytes (it blocks on a blocking socket); error returns (-1)
raise exceptions in the code and are not modelled. `int` has 32 bits. Hosts may be little- or big-endian, `htonl`/`ntohl`
are the byte order conversions of the respective host.
-/
namespace Thot.Socket

abbrev Byte := BitVec 8

/-- Object representation of an `int` in memory. -/
def intBytes (be : Bool) (i : BitVec 32) : List Byte :=
  let l : List Byte := [i.setWidth 8, (i >>> 8).setWidth 8, (i >>> 16).setWidth 8, (i >>> 24).setWidth 8]
  if be then l.reverse else l

/-- The `int` with the given object representation; `none` unless exactly four bytes were stored (the other bytes of
`receivedInt` are then uninitialised). -/
def intOfBytes (be : Bool) (b : List Byte) : Option (BitVec 32) :=
  match (if be then b.reverse else b) with
  | [b0, b1, b2, b3] =>
    some (b0.setWidth 32 ||| (b1.setWidth 32 <<< 8) ||| (b2.setWidth 32 <<< 16) ||| (b3.setWidth 32 <<< 24))
  | _ => none

/-- `htonl`, `ntohl` on a little-endian (`be=false`: swap) or big-endian host (identity). -/
def htonl (be : Bool) (i : BitVec 32) : BitVec 32 :=
  if be then i
  else ((i.setWidth 8).setWidth 32 <<< 24) ||| (((i >>> 8).setWidth 8).setWidth 32 <<< 16) |||
    (((i >>> 16).setWidth 8).setWidth 32 <<< 8) ||| ((i >>> 24).setWidth 8).setWidth 32

/-- BasicSocketUtils.cc:136-148 `writeInt`: the bytes put on the stream. -/
def writeInt (be : Bool) (i : BitVec 32) : List Byte := intBytes be (htonl be i)

/-- BasicSocketUtils.cc:151-169 `writeStr` for the C string with characters `s` (`numbytes=strlen(s)` is converted to
`int`). -/
def writeStr (be : Bool) (s : List Byte) : List Byte :=
  writeInt be (BitVec.ofNat 32 s.length) ++ (if s.length > 0 then s else [])

/-- The receiving end. -/
structure Conn where
  bytes : List Byte
  oracle : List Nat

/-- POSIX `recv(s,buf,n,0)` (n>0): the number of bytes proposed by the oracle, at least one and at most `n` and what is
available; everything requested when the oracle list is exhausted. -/
def recv (n : Nat) (c : Conn) : List Byte × Conn :=
  let k := min (max 1 (c.oracle.headD n)) n
  (c.bytes.take k, ⟨c.bytes.drop k, c.oracle.tail⟩)

/-- BasicSocketUtils.cc:94-111 `recvInt`; the number of received bytes is not checked. -/
def recvInt (be : Bool) (c : Conn) : Option (BitVec 32 × Conn) :=
  let (b, c') := recv 4 c
  match intOfBytes be b with
  | none => none
  | some i => some (htonl be i, c')

/-- Assignment of a C string: up to the first NUL. -/
def cstr (b : List Byte) : List Byte := b.takeWhile (· ≠ 0)

/-- BasicSocketUtils.cc:69-91 `recvStlStr`: (returned number of bytes, string). A negative length makes
`str[numbytes]` an out-of-bounds access: `none`. -/
def recvStlStr (be : Bool) (c : Conn) : Option ((Nat × List Byte) × Conn) :=
  match recvInt be c with
  | none => none
  | some (n, c') =>
    if n.toInt < 0 then none
    else if n.toInt > 0 then
      let (b, c'') := recv n.toNat c'
      some ((b.length, cstr b), c'')
    else some ((0, []), c')

/-- BasicSocketUtils.cc:49-66 `recvStr` into a buffer of `size` bytes: as above, but the bytes go to the caller's buffer
and overflow it (`none`) when the announced number is not smaller than its size. -/
def recvStr (be : Bool) (size : Nat) (c : Conn) : Option ((Nat × List Byte) × Conn) :=
  match recvInt be c with
  | none => none
  | some (n, c') =>
    if n.toInt < 0 then none
    else if n.toInt > 0 then
      let (b, c'') := recv n.toNat c'
      if b.length < size then some ((b.length, cstr b), c'') else none
    else if 0 < size then some ((0, []), c') else none

/-- A message of either kind. -/
inductive Msg where
  | int (i : BitVec 32)
  | str (s : List Byte)
  deriving DecidableEq

/-- The bytes written for a sequence of messages. -/
def writeAll (be : Bool) : List Msg → List Byte
  | [] => []
  | .int i :: ms => writeInt be i ++ writeAll be ms
  | .str s :: ms => writeStr be s ++ writeAll be ms

/-- The peer reads a message of the same kind as each one written. -/
def recvAll (be : Bool) : List Msg → Conn → Option (List Msg × Conn)
  | [], c => some ([], c)
  | .int _ :: ms, c =>
    match recvInt be c with
    | none => none
    | some (i, c') => (recvAll be ms c').map (fun r => (.int i :: r.1, r.2))
  | .str _ :: ms, c =>
    match recvStlStr be c with
    | none => none
    | some ((_, s), c') => (recvAll be ms c').map (fun r => (.str s :: r.1, r.2))

end Thot.Socket
