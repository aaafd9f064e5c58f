import Verif.Awk.Props
/-!
Model of `LightSentenceHandler` (src/sw_models/LightSentenceHandler.cc): random access to sentence pairs stored in files
read line by line, on top of the model of `AwkInputStream` (`Verif.Awk`).

A file is its list of characters, `none` if it cannot be opened.  Counts are rationals; `atof` and the printing of a
count are parameters.  Sizes are natural numbers (no overflow), except the range returned for the corpus, whose second
component is computed modulo `2^32`.  Messages on the error output are left out.
-/
namespace Thot.SentHandler

open Thot.Awk (Str)

/-- An `AwkInputStream`: `FS!=0`, the file, what remains to be read, and `buff` (`none` is the null pointer, in which case
`NF` is uninitialised). -/
structure Stream where
  isOpen : Bool
  file : Str
  rest : Str
  buf : Option Str

/-- The constructor (AwkInputStream.cc:28-34). -/
def Stream.new : Stream := { isOpen := false, file := [], rest := [], buf := none }

/-- `open` (AwkInputStream.cc:92-109): success, and the stream; `buff` keeps its contents. -/
def Stream.openFile (s : Stream) : Option Str → Bool × Stream
  | some f => (true, { s with isOpen := true, file := f, rest := f })
  | none => (false, { s with isOpen := false })

/-- `close` (AwkInputStream.cc:130-137). -/
def Stream.close (s : Stream) : Stream := { s with isOpen := false }

/-- `getln` (AwkInputStream.cc:50-67); `getline` leaves the buffer as it is at the end of the file. -/
def Stream.getln (s : Stream) : Bool × Stream :=
  if s.isOpen then
    match Awk.getln s.rest with
    | some (l, r) => (true, { s with rest := r, buf := some l })
    | none => (false, s)
  else (false, s)

/-- `rwd` (AwkInputStream.cc:140-149). -/
def Stream.rwd (s : Stream) : Stream := if s.isOpen then { s with rest := s.file } else s

/-- The loop `for(i=1;i<=awk.NF;++i) v.push_back(awk.dollar(i))`; `none` if no line has been read (`NF` uninitialised)
or the stream is closed (`dollar` builds a string from a null pointer). -/
def Stream.flds (s : Stream) : Option (List Str) :=
  match s.isOpen, s.buf with
  | true, some b => some ((List.range' 1 (Awk.getNF ' ' b)).map fun i => Awk.dollar ' ' b i)
  | _, _ => none

/-- `awk.dollar(1)`. -/
def Stream.first (s : Stream) : Option Str :=
  match s.isOpen, s.buf with
  | true, some b => some (Awk.dollar ' ' b 1)
  | _, _ => none

/-- The data members. -/
structure State where
  src : Stream
  trg : Stream
  cnt : Stream
  countFileExists : Bool
  ns : Nat
  cur : Nat
  cont : List (List Str × List Str)
  counts : List Rat

/-- The constructor (LightSentenceHandler.cc:32-37). -/
def State.new : State :=
  { src := .new, trg := .new, cnt := .new, countFileExists := false, ns := 0, cur := 0, cont := [], counts := [] }

/-- `clear` (LightSentenceHandler.cc:369-379). -/
def State.clear (st : State) : State :=
  { src := st.src.close, trg := st.trg.close, cnt := st.cnt.close, countFileExists := false, ns := 0, cur := 0,
    cont := [], counts := [] }

/-- The reading of the counts by `getNextLineFromFiles`, and the increment of the index
(LightSentenceHandler.cc:251-259). -/
def nextCount (st : State) : Bool × State :=
  if st.countFileExists then
    match st.cnt.getln with
    | (true, c) => (true, { st with cnt := c, cur := st.cur + 1 })
    | (false, c) => (false, { st with cnt := c })
  else (true, { st with cur := st.cur + 1 })

/-- The reading of the target sentence and of the count (LightSentenceHandler.cc:248-259). -/
def nextTrg (st : State) : Bool × State :=
  match st.trg.getln with
  | (true, t) => nextCount { st with trg := t }
  | (false, t) => (false, { st with trg := t })

/-- `getNextLineFromFiles` (LightSentenceHandler.cc:241-260). -/
def nextLine (st : State) : Bool × State :=
  match st.src.getln with
  | (true, s) => nextTrg { st with src := s }
  | (false, s) => (false, { st with src := s })

/-- `rewindFiles` (LightSentenceHandler.cc:121-133). -/
def rewindFiles (st : State) : State :=
  let st1 := (nextLine { st with src := st.src.rwd, trg := st.trg.rwd, cnt := st.cnt.rwd }).2
  { st1 with cur := 0 }

/-! The loops end because every line read consumes characters of the source file. -/

theorem awk_getline_lt {s l r : Str} (h : Awk.getline s = some (l, r)) : r.length < s.length := by
  induction s generalizing l r with
  | nil => simp [Awk.getline] at h
  | cons c cs ih =>
    rw [Awk.getline] at h
    split at h
    · cases h; simp
    · split at h
      · cases h; simp
      · rename_i l' r' he
        cases h
        have := ih he
        simp; omega

theorem stream_getln_lt {s s' : Stream} (h : s.getln = (true, s')) : s'.rest.length < s.rest.length := by
  unfold Stream.getln Awk.getln at h
  split at h
  · split at h
    · rename_i l r he
      split at he
      · cases he
      · rename_i l2 r2 hg
        cases he
        cases h
        exact awk_getline_lt hg
    · cases h
  · cases h

theorem nextCount_src (st : State) : (nextCount st).2.src = st.src := by
  unfold nextCount
  split
  · split <;> rfl
  · rfl

theorem nextTrg_src (st : State) : (nextTrg st).2.src = st.src := by
  unfold nextTrg
  split
  · rw [nextCount_src]
  · rfl

theorem nextLine_lt {st st' : State} (h : nextLine st = (true, st')) : st'.src.rest.length < st.src.rest.length := by
  unfold nextLine at h
  split at h
  · rename_i s he
    have h2 : st'.src = s := by
      have := nextTrg_src { st with src := s }
      rw [h] at this; exact this
    rw [h2]
    exact stream_getln_lt he
  · cases h

/-- The loop `while(getNextLineFromFiles()) if(currFileSentIdx==n) break;` (LightSentenceHandler.cc:208-211). -/
def seek (n : Nat) (st : State) : State :=
  match h : nextLine st with
  | (true, st') => if st'.cur = n then st' else seek n st'
  | (false, st') => st'
termination_by st.src.rest.length
decreasing_by exact nextLine_lt h

/-- Positioning of the files at pair `n` (LightSentenceHandler.cc:202-212). -/
def position (st : State) (n : Nat) : State :=
  let st1 := if n < st.cur then rewindFiles st else st
  if st1.cur ≠ n then seek n st1 else st1

/-- A sentence pair with its count. -/
abbrev Pair := List Str × List Str × Rat

/-- The count of the current lines (LightSentenceHandler.cc:228-235). -/
def curCount (atof : Str → Rat) (st : State) : Option Rat :=
  if st.countFileExists then st.cnt.first.map atof else some 1

/-- `nthSentPairFromFiles` (LightSentenceHandler.cc:192-238) for `n` below the number of pairs in the files. -/
def nthFromFiles (atof : Str → Rat) (st : State) (n : Nat) : Option (State × Pair) :=
  let st1 := position st n
  st1.src.flds.bind fun s => st1.trg.flds.bind fun t => (curCount atof st1).map fun c => (st1, (s, t, c))

/-- `numSentPairs` (LightSentenceHandler.cc:157-160). -/
def numSentPairs (st : State) : Nat := st.ns + st.cont.length

/-- `nthSentPair` (LightSentenceHandler.cc:163-189): the inner `none` is `THOT_ERROR`. -/
def nthSentPair (atof : Str → Rat) (st : State) (n : Nat) : Option (State × Option Pair) :=
  if numSentPairs st ≤ n then some (st, none)
  else if n < st.ns then (nthFromFiles atof st n).map fun r => (r.1, some r.2)
  else
    (st.cont[n - st.ns]?).bind fun p => (st.counts[n - st.ns]?).map fun c => (st, some (p.1, p.2, c))

/-- `addSentPair` (LightSentenceHandler.cc:136-154): the state and the range. -/
def addSentPair (st : State) (p : Pair) : State × (Nat × Nat) :=
  ({ st with cont := st.cont ++ [(p.1, p.2.1)], counts := st.counts ++ [p.2.2] },
    (st.ns + st.cont.length, st.ns + st.cont.length))

/-- The counting loop of `readSentencePairs` (LightSentenceHandler.cc:90-106): `false` if the target file ends first. -/
def readLoop (st : State) : Bool × State :=
  match h : st.src.getln with
  | (false, s) => (true, { st with src := s })
  | (true, s) =>
    match st.trg.getln with
    | (false, t) => (false, { st with src := s, trg := t })
    | (true, t) => readLoop { st with src := s, trg := t, ns := st.ns + 1 }
termination_by st.src.rest.length
decreasing_by exact stream_getln_lt h

/-- The opening of the file with the counts (LightSentenceHandler.cc:68-84); `none`: no file name is given, or the
file cannot be opened. -/
def openCounts (st : State) (cf : Option Str) : State :=
  match cf with
  | some f => { st with cnt := (st.cnt.openFile (some f)).2, countFileExists := true }
  | none => { st with countFileExists := false }

/-- `sentRange.second=nsPairsInFiles-1` (LightSentenceHandler.cc:111), an `unsigned int`. -/
def lastIdx (ns : Nat) : Nat := (ns + (2 ^ 32 - 1)) % 2 ^ 32

/-- `readSentencePairs` (LightSentenceHandler.cc:40-118): the state and the range (`none` is `THOT_ERROR`). -/
def readSentencePairs (st : State) (sf tf cf : Option Str) : State × Option (Nat × Nat) :=
  let st0 := st.clear
  match st0.src.openFile sf with
  | (false, s) => ({ st0 with src := s }, none)
  | (true, s) =>
    match st0.trg.openFile tf with
    | (false, t) => ({ st0 with src := s, trg := t }, none)
    | (true, t) =>
      match readLoop (openCounts { st0 with src := s, trg := t } cf) with
      | (false, st1) => (st1, none)
      | (true, st1) => (rewindFiles st1, some (0, lastIdx st1.ns))

/-! ### Printing -/

/-- The words of a sentence separated by blanks (LightSentenceHandler.cc:340-345). -/
def joinWords : List Str → Str
  | [] => []
  | [w] => w
  | w :: ws => w ++ ' ' :: joinWords ws

/-- The contents of the three files. -/
abbrev Files := Str × Str × Str

/-- The loop of `printSentPairs` (LightSentenceHandler.cc:331-357) from pair `n` on, `k` pairs. -/
def printLoop (atof : Str → Rat) (fmt : Rat → Str) : Nat → Nat → State → Option (State × Files)
  | _, 0, st => some (st, ([], [], []))
  | n, k + 1, st =>
    (nthSentPair atof st n).bind fun r =>
      let p := r.2.getD ([], [], 0)
      (printLoop atof fmt (n + 1) k r.1).map fun q =>
        (q.1, (joinWords p.1 ++ '\n' :: q.2.1, joinWords p.2.1 ++ '\n' :: q.2.2.1, fmt p.2.2 ++ '\n' :: q.2.2.2))

/-- `printSentPairs` (LightSentenceHandler.cc:299-366), the three files having been opened; the variables passed to
`nthSentPair` are always assigned because the index is in range. -/
def printSentPairs (atof : Str → Rat) (fmt : Rat → Str) (st : State) : Option (State × Files) :=
  printLoop atof fmt 0 (numSentPairs st) st

/-! ### Histories -/

/-- Calls after the corpus has been read. -/
inductive Op where
  | add (p : Pair)
  | nth (n : Nat)
  | src (n : Nat)
  | trg (n : Nat)
  | count (n : Nat)
  | num
  | print

/-- Results. -/
inductive Res where
  | range (r : Nat × Nat)
  | pair (p : Option Pair)
  | sent (s : Option (List Str))
  | cnt (c : Option Rat)
  | num (n : Nat)
  | files (f : Files)
deriving DecidableEq

/-- A call; `getSrcSent`, `getTrgSent`, `getCount` (LightSentenceHandler.cc:263-296) call `nthSentPair`. -/
def step (atof : Str → Rat) (fmt : Rat → Str) (st : State) : Op → Option (State × Res)
  | .add p => some ((addSentPair st p).1, .range (addSentPair st p).2)
  | .nth n => (nthSentPair atof st n).map fun r => (r.1, .pair r.2)
  | .src n => (nthSentPair atof st n).map fun r => (r.1, .sent (r.2.map fun p => p.1))
  | .trg n => (nthSentPair atof st n).map fun r => (r.1, .sent (r.2.map fun p => p.2.1))
  | .count n => (nthSentPair atof st n).map fun r => (r.1, .cnt (r.2.map fun p => p.2.2))
  | .num => some (st, .num (numSentPairs st))
  | .print => (printSentPairs atof fmt st).map fun r => (r.1, .files r.2)

/-- A sequence of calls: the results. -/
def run (atof : Str → Rat) (fmt : Rat → Str) : State → List Op → Option (List Res)
  | _, [] => some []
  | st, o :: os => (step atof fmt st o).bind fun r => (run atof fmt r.1 os).map fun l => r.2 :: l

end Thot.SentHandler
