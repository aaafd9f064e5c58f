/-
Model of the string functions of /repo/src/nlp_common/StrProcUtils.cc.
A `std::string` is a list of characters. Index variables are replaced by the suffix (or, in
`getLastWord`, the reversed prefix) still to be read.
-/
namespace Thot.StrProc

abbrev Str := List Char

/-- The blanks recognised by `stringToStringVector`. StrProcUtils.cc:58,64. -/
def isBlank (c : Char) : Bool := c == ' ' || c == '\t'

/-- `while(s[i]!=' ' && s[i]!='\t' && i<s.size()) {aux+=s[i]; ++i;}`. StrProcUtils.cc:58-62. -/
def wordLoop : Str → Str → Str × Str
  | aux, [] => (aux, [])
  | aux, c :: cs => if c ≠ ' ' ∧ c ≠ '\t' then wordLoop (aux ++ [c]) cs else (aux, c :: cs)

/-- `while((s[i]==' ' || s[i]=='\t') && i<s.size()) ++i;`. StrProcUtils.cc:64. -/
def skipLoop : Str → Str
  | [] => []
  | c :: cs => if c = ' ' ∨ c = '\t' then skipLoop cs else c :: cs

theorem wordLoop_len (aux s : Str) : (wordLoop aux s).2.length ≤ s.length := by
  induction s generalizing aux with
  | nil => simp [wordLoop]
  | cons c cs ih =>
    rw [wordLoop]; split
    · exact Nat.le_succ_of_le (ih _)
    · simp

theorem skipLoop_len (s : Str) : (skipLoop s).length ≤ s.length := by
  induction s with
  | nil => simp [skipLoop]
  | cons c cs ih =>
    rw [skipLoop]; split
    · exact Nat.le_succ_of_le ih
    · simp

theorem iter_len (c : Char) (cs : Str) :
    (skipLoop (wordLoop [] (c :: cs)).2).length < (c :: cs).length := by
  rw [wordLoop]
  split
  · exact Nat.lt_succ_of_le (Nat.le_trans (skipLoop_len _) (wordLoop_len _ _))
  · rename_i h
    have : c = ' ' ∨ c = '\t' := by
      by_cases h1 : c = ' '
      · exact Or.inl h1
      · by_cases h2 : c = '\t'
        · exact Or.inr h2
        · exact absurd ⟨h1, h2⟩ h
    simp only [skipLoop, if_pos this]
    exact Nat.lt_succ_of_le (skipLoop_len _)

/-- The outer loop of `stringToStringVector` on the unread suffix; the empty suffix only occurs for an
empty input (the loop ends as soon as `i>=s.size()`). StrProcUtils.cc:55-66. -/
def splitLoop (s : Str) : List Str :=
  match hs : s with
  | [] => if (wordLoop [] []).1 ≠ [] then [(wordLoop [] []).1] else []
  | c :: cs =>
    let w := wordLoop [] (c :: cs)
    let out := if w.1 ≠ [] then [w.1] else []
    let rest := skipLoop w.2
    if rest = [] then out else out ++ splitLoop rest
termination_by s.length
decreasing_by
  have := iter_len c cs
  simpa using this

/-- `stringToStringVector(s)`. StrProcUtils.cc:48-69. -/
def stringToStringVector (s : Str) : List Str := splitLoop s

/-- `for(i=1;...) result=result+" "+svec[i]`. StrProcUtils.cc:80-83. -/
def joinLoop : Str → List Str → Str
  | r, [] => r
  | r, w :: ws => joinLoop (r ++ ' ' :: w) ws

/-- `stringVectorToString(svec)`. StrProcUtils.cc:72-86. -/
def stringVectorToString : List Str → Str
  | [] => []
  | w :: ws => joinLoop w ws

/-- `stringVectorToStringWithoutSpaces`. StrProcUtils.cc:89-103. -/
def stringVectorToStringWithoutSpaces : List Str → Str
  | [] => []
  | w :: ws => ws.foldl (fun r x => r ++ x) w

/-- Loop of `isPrefix` (sizes already compared). StrProcUtils.cc:113-118. -/
def isPrefixLoop : Str → Str → Bool
  | [], _ => true
  | _ :: _, [] => false
  | a :: as, b :: bs => if a ≠ b then false else isPrefixLoop as bs

/-- `isPrefix(str1,str2)`. StrProcUtils.cc:106-120. -/
def isPrefix (s1 s2 : Str) : Bool := if s1.length > s2.length then false else isPrefixLoop s1 s2

/-- Loop of `isPrefixStrVec`; the element is the last one of `strVec1` when nothing follows it.
StrProcUtils.cc:130-142. -/
def isPrefixStrVecLoop : List Str → List Str → Bool
  | [], _ => true
  | _ :: _, [] => false
  | a :: as, b :: bs =>
    if a ≠ b then
      if as.length = 0 then
        if !isPrefix a b then false else isPrefixStrVecLoop as bs
      else false
    else isPrefixStrVecLoop as bs

/-- `isPrefixStrVec(strVec1,strVec2)`. StrProcUtils.cc:123-143. -/
def isPrefixStrVec (v1 v2 : List Str) : Bool :=
  if v1.length > v2.length then false else isPrefixStrVecLoop v1 v2

/-- `while(i>0 && str[i]==' ') --i;` on the reversed prefix `str[i],...,str[0]`.
StrProcUtils.cc:155. -/
def lastSkip : Str → Str
  | c :: d :: r => if c = ' ' then lastSkip (d :: r) else c :: d :: r
  | l => l

/-- `while(i>0 && str[i]!=' ') {result=str[i]+result; --i;}`. StrProcUtils.cc:156-160. -/
def lastTake : Str → Str → Str
  | res, c :: d :: r => if c ≠ ' ' then lastTake (c :: res) (d :: r) else res
  | res, _ => res

/-- `getLastWord(str)`. StrProcUtils.cc:146-163. -/
def getLastWord (s : Str) : Str := if s.length = 0 then [] else lastTake [] (lastSkip s.reverse)

/-- `lastCharIsBlank`. StrProcUtils.cc:166-175. -/
def lastCharIsBlank (s : Str) : Bool :=
  if s.length > 0 then (match s[s.length - 1]? with | some ' ' => true | _ => false) else false

/-- `removeLastBlank`. StrProcUtils.cc:178-191. -/
def removeLastBlank (s : Str) : Str :=
  if s.length > 0 then
    (match s[s.length - 1]? with
    | some ' ' => s.take (s.length - 1)
    | _ => s)
  else s

/-- `addBlank`. StrProcUtils.cc:194-198. -/
def addBlank (s : Str) : Str := s ++ [' ']

/-- `expandLibDirIfFound(soFileName)` with the variable string `$(...)` and the library directory as
parameters. StrProcUtils.cc:216-263. -/
def expandLibDirIfFound (var libDir so : Str) : Str :=
  if so.length < var.length then so
  else if var = so.take var.length then libDir ++ (so.drop var.length).take (so.length - var.length)
  else so

end Thot.StrProc
