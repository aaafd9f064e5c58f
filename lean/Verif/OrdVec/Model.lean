/-
Model of the template class `OrderedVector<KEY,DATA,KEY_ORDER_REL>`,
/repo/src/nlp_common/OrderedVector.h.

The C array `vec[0..sizeVec-1]` is a list of pairs; an access outside of it is undefined behaviour
(`none`). `realloc`, `memmove`, placement-new and destructor calls are modelled by their effect on
the sequence of pairs (memory management itself is not modelled).
-/
namespace Thot.OrdVec

variable {K D : Type}

/-- `std::pair<KEY,DATA>* vec; size_t sizeVec`. OrderedVector.h:138-140. -/
abbrev Vec (K D : Type) := List (K × D)

/-- The code after the loop of `findIndex`. OrderedVector.h:376-382. -/
def findTail (lt : K → K → Bool) (vec : Vec K D) (k : K) (left : Nat) : Option (Bool × Nat) :=
  if left = vec.length then some (false, left)
  else match vec[left]? with
    | none => none
    | some p => if lt k p.1 then some (false, left) else some (false, left + 1)

/-- The binary-search loop of `findIndex`. OrderedVector.h:361-375. -/
def findLoop (lt : K → K → Bool) (vec : Vec K D) (k : K) (left right : Nat) : Option (Bool × Nat) :=
  if left < right then
    let mid := (left + right) / 2
    match vec[mid]? with
    | none => none
    | some p =>
      if lt k p.1 then findLoop lt vec k left mid
      else if lt p.1 k then findLoop lt vec k (mid + 1) right
      else some (true, mid)
  else findTail lt vec k left
termination_by right - left
decreasing_by all_goals omega

/-- `findIndex(k,index)`: the pair (returned flag, `index`). OrderedVector.h:351-389. -/
def findIndex (lt : K → K → Bool) (vec : Vec K D) (k : K) : Option (Bool × Nat) :=
  if 0 < vec.length then findLoop lt vec k 0 vec.length else some (false, 0)

/-- `push(k,d)`. When found only the data is replaced (the old key is kept); otherwise the pair is
inserted at `index` (`alloc`, `memmove`, assignment; undefined if `index` is past the end).
OrderedVector.h:238-274. -/
def push (lt : K → K → Bool) (vec : Vec K D) (k : K) (d : D) : Option (Vec K D) :=
  if vec.length = 0 then some [(k, d)]
  else match findIndex lt vec k with
    | none => none
    | some (true, i) =>
      match vec[i]? with
      | none => none
      | some p => some (vec.set i (p.1, d))
    | some (false, i) =>
      if i ≤ vec.length then some (vec.take i ++ (k, d) :: vec.drop i) else none

/-- `insert(k,d)`. OrderedVector.h:278-282. -/
def insert (lt : K → K → Bool) (vec : Vec K D) (k : K) (d : D) : Option (Vec K D) := push lt vec k d

/-- `pop()`: `alloc(size()-1)` drops the last pair. OrderedVector.h:285-291, 190-233. -/
def pop (vec : Vec K D) : Vec K D := if 0 < vec.length then vec.take (vec.length - 1) else vec

/-- `top()`: `vec[size()-1]`; undefined on an empty vector. OrderedVector.h:295-298. -/
def top (vec : Vec K D) : Option (K × D) := if vec.length = 0 then none else vec[vec.length - 1]?

/-- `findPtr(k)`: the data pointed to, `some none` for a NULL result. OrderedVector.h:302-312. -/
def findPtr (lt : K → K → Bool) (vec : Vec K D) (k : K) : Option (Option D) :=
  match findIndex lt vec k with
  | none => none
  | some (true, i) => (vec[i]?).map (fun p => some p.2)
  | some (false, _) => some none

/-- `operator[](k)`: the new vector and the position of the referenced data. `d0` is the value of the
default-initialised `DATA d` (indeterminate for built-in types, hence a parameter).
OrderedVector.h:334-347. -/
def index (lt : K → K → Bool) (d0 : D) (vec : Vec K D) (k : K) : Option (Vec K D) :=
  match findIndex lt vec k with
  | none => none
  | some (true, _) => some vec
  | some (false, _) => insert lt vec k d0

/-- `v[k]=d`: `operator[]` followed by an assignment through the returned reference. The reference
designates the data `findIndex` finds after the call. OrderedVector.h:334-347. -/
def assign (lt : K → K → Bool) (d0 : D) (vec : Vec K D) (k : K) (d : D) : Option (Vec K D) :=
  match index lt d0 vec k with
  | none => none
  | some vec' =>
    match findIndex lt vec' k with
    | some (true, i) =>
      match vec'[i]? with
      | some p => some (vec'.set i (p.1, d))
      | none => none
    | _ => none

/-- `clear()`. OrderedVector.h:408-411. -/
def clear (_ : Vec K D) : Vec K D := []

/-- `size()`. OrderedVector.h:401-404. -/
def size (vec : Vec K D) : Nat := vec.length

/-- Copy constructor: element-wise copy into freshly allocated storage. OrderedVector.h:160-169. -/
def copy (ov : Vec K D) : Vec K D := ov.map id

end Thot.OrdVec
