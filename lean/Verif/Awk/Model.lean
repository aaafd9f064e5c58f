/-!
Model of `AwkInputStream` (src/nlp_common/AwkInputStream.cc): line reading and field splitting.
A file is its list of characters; `getline` (POSIX) returns the characters up to and including the next `'\n'`.
-/
namespace Thot.Awk

abbrev Str := List Char

/-- POSIX `getline` on the remaining input: `none` at end of file, else (line including its `'\n'` if any, rest). -/
def getline : Str → Option (Str × Str)
  | [] => none
  | c :: cs => if c = '\n' then some ([c], cs) else
      match getline cs with
      | none => some ([c], [])
      | some (l, r) => some (c :: l, r)

/-- The C string held in a buffer: up to the first NUL. -/
def cstr (b : Str) : Str := b.takeWhile (· ≠ '\x00')

/-- AwkInputStream.cc:50-67 `getln`: `buff[read-1]='\0'` overwrites the last character read, whatever it is. -/
def getln (inp : Str) : Option (Str × Str) :=
  match getline inp with
  | none => none
  | some (l, r) => some (cstr l.dropLast, r)

/-- AwkInputStream.cc:171, 176: `while(buff[i]!=0 && buff[i]==FS) ++i`. -/
def skipFS (fs : Char) : Str → Str
  | [] => []
  | c :: cs => if c = fs then skipFS fs cs else c :: cs

theorem skipFS_len (fs : Char) (s : Str) : (skipFS fs s).length ≤ s.length := by
  induction s with
  | nil => simp [skipFS]
  | cons c cs ih => rw [skipFS]; split <;> simp; omega

/-- AwkInputStream.cc:172-184: the counting loop of `get_NF`. -/
def nfLoop (fs : Char) (nf : Nat) : Str → Nat
  | [] => nf
  | c :: cs =>
    if c = fs then nfLoop fs (nf + 1) (skipFS fs cs)
    else nfLoop fs (if cs = [] then nf + 1 else nf) cs
termination_by s => s.length
decreasing_by
  · have := skipFS_len fs cs; simp; omega
  · simp

/-- AwkInputStream.cc:165-186 `get_NF` on the current line. -/
def getNF (fs : Char) (buff : Str) : Nat := nfLoop fs 0 (skipFS fs buff)

/-- AwkInputStream.cc:215-229: the second loop of `retrieveField`; `k` = numFields, `acc` = fieldStr. -/
def retLoop (fs : Char) (n : Nat) (k : Nat) (acc : Str) : Str → Str
  | [] => acc
  | c :: cs =>
    if c = fs then
      if k + 1 > n then acc else retLoop fs n (k + 1) acc (skipFS fs cs)
    else
      let acc' := if n = k then acc ++ [c] else acc
      let k' := if cs = [] ∧ n = k then k + 1 else k
      if k' > n then acc' else retLoop fs n k' acc' cs
termination_by s => s.length
decreasing_by
  · have := skipFS_len fs cs; simp; omega
  · simp

/-- AwkInputStream.cc:189-230 `retrieveField` (its first loop recomputes `NF` as `get_NF` does). -/
def retrieveField (fs : Char) (buff : Str) (n : Nat) : Str := retLoop fs n 0 [] (skipFS fs buff)

/-- AwkInputStream.cc:70-89 `dollar` (file open, so `FS≠0`). -/
def dollar (fs : Char) (buff : Str) (n : Nat) : Str :=
  if n = 0 then buff else if n > getNF fs buff then [] else retrieveField fs buff (n - 1)

/-- Reading all lines: `while(awk.getln())`, collecting `dollar(0)`. -/
def readAll : Nat → Str → List Str
  | 0, _ => []
  | fuel + 1, inp => match getln inp with
    | none => []
    | some (l, r) => l :: readAll fuel r

end Thot.Awk
