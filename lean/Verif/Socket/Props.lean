import Verif.Socket.Model
/-! C23: messages over a socket. -/
namespace Thot.Socket

/-- Messages that can be written: C strings (no NUL byte) whose length is an `int`. -/
def Writable : Msg → Prop
  | .int _ => True
  | .str s => (∀ b ∈ s, b ≠ 0) ∧ s.length < 2^31

/-- Full statement of C23: however the network splits the stream, the reader gets the messages written, in order, and
nothing is left over. -/
def C23_full : Prop := ∀ (be be' : Bool) (ms : List Msg) (oracle : List Nat), (∀ m ∈ ms, Writable m) →
  ∃ c, recvAll be' ms ⟨writeAll be ms, oracle⟩ = some (ms, c) ∧ c.bytes = []

/-- **C23 is false of the code**: "ab" followed by 7; the second `recv` delivers one byte of "ab" only, so the string is
"a" and the integer is read from the wrong place. -/
theorem C23_counterexample : ¬ C23_full := by
  intro h
  obtain ⟨c, hc, _⟩ := h false false [.str [97, 98], .int 7] [4, 1, 4] (by
    intro m hm
    simp only [List.mem_cons, List.not_mem_nil, or_false] at hm
    rcases hm with rfl | rfl
    · exact ⟨by decide, by decide⟩
    · trivial)
  have : (recvAll false [.str [97, 98], .int 7] ⟨writeAll false [.str [97, 98], .int 7], [4, 1, 4]⟩).map (·.1)
      = some [.str [97], .int 0x62000000] := by decide +kernel
  rw [hc] at this
  simp at this

theorem int_roundtrip (be be' : Bool) (i : BitVec 32) : intOfBytes be' (writeInt be i) = some (htonl be' i) := by
  have e : writeInt be i = writeInt true i := by
    cases be
    · simp only [writeInt, intBytes, htonl, Bool.false_eq_true, if_false, if_true, List.reverse_cons, List.reverse_nil,
        List.nil_append, List.cons_append, List.cons.injEq, and_true]
      refine ⟨?_, ?_, ?_, ?_⟩ <;> (ext k; simp <;> grind)
    · rfl
  rw [e]
  cases be'
  · simp only [writeInt, intBytes, htonl, intOfBytes, Bool.false_eq_true, if_false, if_true, List.reverse_cons,
      List.reverse_nil, List.nil_append, List.cons_append, Option.some.injEq]
    ext k; simp <;> grind
  · simp only [writeInt, intBytes, htonl, intOfBytes, if_true, List.reverse_cons,
      List.reverse_nil, List.nil_append, List.cons_append, Option.some.injEq]
    ext k; simp <;> grind

theorem htonl_htonl (be : Bool) (i : BitVec 32) : htonl be (htonl be i) = i := by
  cases be
  · simp only [htonl, Bool.false_eq_true, if_false]
    ext k hk
    simp only [BitVec.getElem_or, BitVec.getElem_shiftLeft, BitVec.getElem_setWidth, BitVec.getLsbD_setWidth,
      BitVec.getLsbD_or, BitVec.getLsbD_shiftLeft, BitVec.getLsbD_ushiftRight]
    rcases (by omega : k < 8 ∨ (8 ≤ k ∧ k < 16) ∨ (16 ≤ k ∧ k < 24) ∨ (24 ≤ k ∧ k < 32)) with h | h | h | h
    · have e1 : k < 24 := by omega
      have e2 : k < 16 := by omega
      simp [h, e1, e2]
      grind
    · grind
    · grind
    · grind
  · rfl

theorem length_writeInt (be : Bool) (i : BitVec 32) : (writeInt be i).length = 4 := by
  cases be <;> rfl

theorem cstr_self (s : List Byte) (h : ∀ b ∈ s, b ≠ 0) : cstr s = s := by
  unfold cstr
  induction s with
  | nil => rfl
  | cons a s ih =>
    rw [List.takeWhile_cons_of_pos (by simpa using h a List.mem_cons_self), ih fun b hb => h b (List.mem_cons_of_mem _ hb)]

/-- `recv` that delivers everything it is asked for. -/
theorem recv_full (n : Nat) (b rest : List Byte) (hb : b.length = n) (o : List Nat) (ho : n ≤ o.headD n) :
    recv n ⟨b ++ rest, o⟩ = (b, ⟨rest, o.tail⟩) := by
  have : min (max 1 (o.headD n)) n = n := by omega
  simp only [recv, this]
  rw [← hb, List.take_left, List.drop_left]

/-- The sizes of the `recv` requests made when reading the messages. -/
def requests : List Msg → List Nat
  | [] => []
  | .int _ :: ms => 4 :: requests ms
  | .str s :: ms => 4 :: (if s.length > 0 then s.length :: requests ms else requests ms)

/-- The network delivers every request in full. -/
def Full : List Nat → List Nat → Prop
  | [], _ => True
  | n :: ns, o => n ≤ o.headD n ∧ Full ns o.tail

theorem recvInt_full (be be' : Bool) (i : BitVec 32) (rest : List Byte) (o : List Nat) (ho : 4 ≤ o.headD 4) :
    recvInt be' ⟨writeInt be i ++ rest, o⟩ = some (i, ⟨rest, o.tail⟩) := by
  unfold recvInt
  rw [recv_full 4 _ _ (length_writeInt be i) o ho]
  simp only [int_roundtrip, htonl_htonl]

/-- What is left on the stream after reading. -/
theorem recvAll_full (be be' : Bool) (ms : List Msg) (rest : List Byte) (o : List Nat) (hw : ∀ m ∈ ms, Writable m)
    (hf : Full (requests ms) o) :
    ∃ c, recvAll be' ms ⟨writeAll be ms ++ rest, o⟩ = some (ms, c) ∧ c.bytes = rest := by
  induction ms generalizing o with
  | nil => exact ⟨⟨rest, o⟩, rfl, rfl⟩
  | cons m ms ih =>
    have hw' : ∀ m ∈ ms, Writable m := fun x hx => hw x (List.mem_cons_of_mem _ hx)
    cases m with
    | int i =>
      simp only [writeAll, recvAll, List.append_assoc]
      obtain ⟨h1, h2⟩ := hf
      rw [recvInt_full be be' i _ o h1]
      obtain ⟨c, hc, hr⟩ := ih o.tail hw' h2
      simp only [hc]
      exact ⟨c, rfl, hr⟩
    | str s =>
      obtain ⟨hz, hl⟩ := hw (.str s) List.mem_cons_self
      simp only [writeAll, recvAll, writeStr, List.append_assoc]
      rw [requests] at hf
      obtain ⟨h1, h2⟩ := hf
      unfold recvStlStr
      rw [recvInt_full be be' _ _ o h1]
      have hN : (BitVec.ofNat 32 s.length).toNat = s.length := by
        rw [BitVec.toNat_ofNat, Nat.mod_eq_of_lt (by omega)]
      have hI : (BitVec.ofNat 32 s.length).toInt = s.length := by
        rw [BitVec.toInt_eq_toNat_of_lt (by rw [hN]; omega), hN]
      have hI' : (BitVec.ofNat 32 s.length).toNat = s.length := hN
      simp only [hI, hN]
      rw [if_neg (by omega)]
      by_cases hs : s.length > 0
      · rw [if_pos (by omega)]
        simp only [hs, if_true] at h2 ⊢
        obtain ⟨h3, h4⟩ := h2
        rw [recv_full s.length s _ rfl o.tail h3]
        have hcs : cstr s = s := cstr_self s hz
        simp only [hcs]
        obtain ⟨c, hc, hr⟩ := ih o.tail.tail hw' h4
        simp only [hc]
        exact ⟨c, rfl, hr⟩
      · rw [if_neg (by omega)]
        simp only [hs, if_false, List.nil_append] at h2 ⊢
        obtain ⟨c, hc, hr⟩ := ih o.tail hw' h2
        have : s = [] := by cases s with | nil => rfl | cons => simp at hs
        subst this
        simp only [hc]
        exact ⟨c, rfl, hr⟩

/-- **C23 (partial).** If every `recv` call delivers all the bytes requested (the network may deliver them late, but not
split a request), the reader gets the written messages in order with nothing left over, whatever the byte orders of the
two hosts and whatever follows on the stream. Missing: split deliveries (see the counterexample). -/
theorem C23_partial (be be' : Bool) (ms : List Msg) (rest : List Byte) (o : List Nat) (hw : ∀ m ∈ ms, Writable m)
    (hf : Full (requests ms) o) :
    ∃ c, recvAll be' ms ⟨writeAll be ms ++ rest, o⟩ = some (ms, c) ∧ c.bytes = rest :=
  recvAll_full be be' ms rest o hw hf

/-- The hypotheses are met, e.g. with an oracle that always offers more than requested. -/
example : Full (requests [.int 5, .str [], .str [1, 2]]) [100, 100, 4, 2] := by simp [requests, Full]

/-- **C23.** With split deliveries, a string message is truncated to what its one `recv` call returned: a non-empty
prefix of the string, and the rest of the string stays on the stream in front of the next message. -/
theorem C23_truncation (be be' : Bool) (s rest : List Byte) (k : Nat) (o : List Nat) (hw : Writable (.str s))
    (hs : s ≠ []) (hk : 1 ≤ k) (hk' : k ≤ s.length) :
    recvStlStr be' ⟨writeStr be s ++ rest, 4 :: k :: o⟩ = some ((k, s.take k), ⟨s.drop k ++ rest, o⟩) := by
  obtain ⟨hz, hl⟩ := hw
  have hpos : s.length > 0 := by cases s with | nil => exact absurd rfl hs | cons => simp
  unfold recvStlStr
  rw [writeStr, if_pos hpos, List.append_assoc, recvInt_full be be' _ _ _ (by simp)]
  have hN : (BitVec.ofNat 32 s.length).toNat = s.length := by
    rw [BitVec.toNat_ofNat, Nat.mod_eq_of_lt (by omega)]
  have hI : (BitVec.ofNat 32 s.length).toInt = s.length := by
    rw [BitVec.toInt_eq_toNat_of_lt (by rw [hN]; omega), hN]
  simp only [hI, hN]
  rw [if_neg (by omega), if_pos (by omega)]
  have hm : min (max 1 k) s.length = k := by omega
  simp only [recv, List.tail_cons, List.headD_cons, hm]
  rw [List.take_append_of_le_length hk', List.drop_append_of_le_length hk']
  have hcs : cstr (s.take k) = s.take k :=
    cstr_self _ (fun b hb => hz b (List.mem_of_mem_take hb))
  rw [hcs, List.length_take, Nat.min_eq_left hk']

/-- `recvStr` into a caller's buffer behaves like `recvStlStr` when the string fits with its terminator, and writes past
the buffer otherwise. -/
theorem C23_recvStr (be be' : Bool) (s rest : List Byte) (size : Nat) (o : List Nat) (hw : Writable (.str s))
    (hf : Full (requests [.str s]) o) :
    (s.length < size → recvStr be' size ⟨writeStr be s ++ rest, o⟩ = recvStlStr be' ⟨writeStr be s ++ rest, o⟩) ∧
    (size ≤ s.length → recvStr be' size ⟨writeStr be s ++ rest, o⟩ = none) := by
  obtain ⟨hz, hl⟩ := hw
  rw [requests] at hf
  obtain ⟨h1, h2⟩ := hf
  have hN : (BitVec.ofNat 32 s.length).toNat = s.length := by
    rw [BitVec.toNat_ofNat, Nat.mod_eq_of_lt (by omega)]
  have hI : (BitVec.ofNat 32 s.length).toInt = s.length := by
    rw [BitVec.toInt_eq_toNat_of_lt (by rw [hN]; omega), hN]
  unfold recvStlStr recvStr
  rw [writeStr, List.append_assoc, recvInt_full be be' _ _ _ h1]
  have a : ¬ ((s.length : Int) < 0) := by omega
  simp only [hI, hN, a, if_false]
  by_cases hs : s.length > 0
  · have b : (s.length : Int) > 0 := by omega
    simp only [hs, b, if_true] at h2 ⊢
    rw [recv_full s.length s rest rfl o.tail h2.1]
    constructor
    · intro h; simp only [h, if_true]
    · intro h
      have : ¬ s.length < size := by omega
      simp only [this, if_false]
  · have b : ¬ (s.length : Int) > 0 := by omega
    simp only [hs, b, if_false]
    constructor
    · intro h
      have : 0 < size := by omega
      simp only [this, if_true]
    · intro h
      have : ¬ 0 < size := by omega
      simp only [this, if_false]

end Thot.Socket
