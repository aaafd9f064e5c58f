/-
Model of the `Bitset` template class, /repo/src/nlp_common/Bitset.h.

`unsigned int` is 32 bits wide (`NUM_BITS_INT` = 8*sizeof(unsigned int) = 32, Bitset.h:77-78), so a
word is a `BitVec 32`; the member array `words[NUM_WORDS(N)]` (Bitset.h:132) is a list of words.
Reading or writing outside the array is undefined behaviour in C++: the outcome is `none`.
-/
namespace Thot.Bitset

/-- One `unsigned int` of storage. Bitset.h:132. -/
abbrev Word := BitVec 32

/-- `unsigned int words[NUM_WORDS(N)]`, least significant word first. Bitset.h:132. -/
abbrev Words := List Word

/-- The macro `NUM_WORDS(__n)`. Bitset.h:81. -/
def numWords (n : Nat) : Nat := if n < 1 then 1 else (n - 1 + 32) / 32

/-- `Bitset(void)`: all words zero. Bitset.h:138-141, 210-217. -/
def init (N : Nat) : Words := List.replicate (numWords N) 0

/-- `reset(void)`. Bitset.h:210-217. -/
def resetAll (ws : Words) : Words := ws.map (fun _ => 0)

/-- `set(void)`: every stored word becomes `UINT_MAX`. Bitset.h:221-231. -/
def setAll (ws : Words) : Words := ws.map (fun _ => BitVec.allOnes 32)

/-- `reset(size_t n)`. Bitset.h:235-246. -/
def reset (ws : Words) (n : Nat) : Option Words :=
  let i := numWords (n + 1) - 1
  let k := n - i * 32
  if h : i < ws.length then
    let aux : Word := ~~~ ((1 : Word) <<< k)
    some (ws.set i (ws[i] &&& aux))
  else none

/-- `set(size_t n, int val=1)`. Bitset.h:250-264. -/
def set (ws : Words) (n : Nat) (val : Int := 1) : Option Words :=
  if val = 0 then reset ws n
  else
    let i := numWords (n + 1) - 1
    let k := n - i * 32
    if h : i < ws.length then
      some (ws.set i (ws[i] ||| ((1 : Word) <<< k)))
    else none

/-- `test(size_t n) const`. Bitset.h:268-275. -/
def test (ws : Words) (n : Nat) : Option Bool :=
  let i := numWords (n + 1) - 1
  if h : i < ws.length then
    some (((ws[i] >>> (n - i * 32)) &&& 1) != 0)
  else none

/-- `operator==`: loop over the words, first difference decides. Bitset.h:184-193. -/
def eq : Words → Words → Bool
  | [], _ => true
  | _, [] => true
  | a :: as, b :: bs => if a ≠ b then false else eq as bs

/-- `operator!=`. Bitset.h:197-206. -/
def ne : Words → Words → Bool
  | [], _ => false
  | _, [] => false
  | a :: as, b :: bs => if a ≠ b then true else ne as bs

/-- Body of `operator<` on words listed from the most significant one (the loop runs from
`i=NUM_WORDS(N)` down to 1). Bitset.h:464-474. -/
def ltMsw : List Word → List Word → Bool
  | [], _ => false
  | _, [] => false
  | a :: as, b :: bs => if a < b then true else if b < a then false else ltMsw as bs

/-- `operator<`. Bitset.h:464-474. -/
def lt (x y : Words) : Bool := ltMsw x.reverse y.reverse

/-- Body of `operator>`. Bitset.h:478-488. -/
def gtMsw : List Word → List Word → Bool
  | [], _ => false
  | _, [] => false
  | a :: as, b :: bs => if a < b then false else if b < a then true else gtMsw as bs

/-- `operator>`. Bitset.h:478-488. -/
def gt (x y : Words) : Bool := gtMsw x.reverse y.reverse

/-- `operator++`: the loop stops at the first word whose top bit did not go from 1 to 0.
Bitset.h:396-408. -/
def incr : Words → Words
  | [] => []
  | w :: ws =>
    let n : Word := (1 : Word) <<< 31
    let lastbit := w &&& n
    let w' := w + 1
    if ¬ (lastbit = n ∧ (w' &&& n) = 0) then w' :: ws
    else w' :: incr ws

/-- `operator+` (it modifies and returns `*this`). `left` is the unprocessed part of `*this` (its
first word may already have received a `++` from the previous word), `right` the unprocessed part of
the argument. Simplification: `right` is not the same object as `*this`. Bitset.h:293-307. -/
def add : Words → Words → Words
  | [], _ => []
  | ws, [] => ws
  | w :: ws, r :: rs =>
    let n : Word := (1 : Word) <<< 31
    let lastbit := w &&& n
    let w' := w + r
    if lastbit = n ∧ (w' &&& n) = 0 then
      match ws with
      | [] => [w']
      | v :: vs => w' :: add ((v + 1) :: vs) rs
    else w' :: add ws rs

/-- `operator&=`. Bitset.h:311-321. -/
def andAssign : Words → Words → Words := List.zipWith (· &&& ·)
/-- `operator|=`. Bitset.h:324-334. -/
def orAssign : Words → Words → Words := List.zipWith (· ||| ·)
/-- `operator^=`. Bitset.h:338-348. -/
def xorAssign : Words → Words → Words := List.zipWith (· ^^^ ·)

/-- The mask loop of `operator>>=`: `for(i=0;i<pos;++i){w=w<<1; w=w|1;}`. Bitset.h:361-364. -/
def shrMask : Nat → Word → Word
  | 0, w => w
  | k + 1, w => shrMask k ((w <<< 1) ||| 1)

/-- The main loop of `operator>>=`, in place, at index `i` with `fuel` remaining iterations.
`aux<<(32-pos)` is a shift by 32 when `pos=0`, formally undefined in C++; there `aux=0` because the
mask is 0, and the model uses the mathematical value 0. Bitset.h:366-379. -/
def shrLoop (j pos : Nat) (mask : Word) : Nat → Nat → Words → Words
  | 0, _, ws => ws
  | fuel + 1, i, ws =>
    let ws' :=
      if pos < 32 ∧ i + j < ws.length then
        let v := (ws.getD (i + j) 0) >>> pos
        let v' :=
          if i + j + 1 < ws.length then
            v ||| (((ws.getD (i + j + 1) 0) &&& mask) <<< (32 - pos))
          else v
        ws.set i v'
      else ws.set i 0
    shrLoop j pos mask fuel (i + 1) ws'

/-- `operator>>=(size_t pos)`. Bitset.h:352-382. -/
def shrAssign (ws : Words) (pos : Nat) : Words :=
  let j := numWords (pos + 1) - 1
  let pos' := pos - j * 32
  shrLoop j pos' (shrMask pos' 0) ws.length 0 ws

/-- Loop of `count(unsigned int J)`: current word index `i`, mask `w`, accumulator `c`, `fuel`
remaining positions. Reading past the array is undefined behaviour (`none`). Bitset.h:412-431. -/
def countLoop (ws : Words) : Nat → Nat → Word → Nat → Option Nat
  | 0, _, _, c => some c
  | fuel + 1, i, w, c =>
    if h : i < ws.length then
      let c' := if (ws[i] &&& w) ≠ 0 then c + 1 else c
      let w' := w <<< 1
      if w' = 0 then countLoop ws fuel (i + 1) 1 c'
      else countLoop ws fuel i w' c'
    else none

/-- `count(unsigned int J=N)`. Bitset.h:412-431. -/
def count (ws : Words) (J : Nat) : Option Nat := countLoop ws J 0 1 0

/-- `to_uint`. Bitset.h:435-438. -/
def toUint (ws : Words) : Option Word := ws[0]?

/-- `Bitset(unsigned int ui)`: `words[0]=ui`. Bitset.h:145-149. -/
def ofUint (N : Nat) (ui : Word) : Words := (init N).set 0 ui

/-- `to_ulong` with `sizeof(unsigned long)=8` (two words): for a one-word bitset the read of
`words[1]` is out of bounds (`none`). Bitset.h:442-460. -/
def toUlong (ws : Words) : Option (BitVec 64) :=
  match ws with
  | w0 :: w1 :: _ =>
    let r0 : BitVec 64 := ((0 : BitVec 64) <<< 32) + w1.setWidth 64
    some ((r0 <<< 32) + w0.setWidth 64)
  | _ => none

/-- `Bitset(unsigned long ul)` with `sizeof(unsigned long)=8`: the write of `words[1]` is out of bounds
for a one-word bitset (`none`). Bitset.h:153-170. -/
def ofUlong (N : Nat) (ul : BitVec 64) : Option Words :=
  match init N with
  | _ :: _ :: rest => some (ul.setWidth 32 :: (ul >>> 32).setWidth 32 :: rest)
  | _ => none

end Thot.Bitset
