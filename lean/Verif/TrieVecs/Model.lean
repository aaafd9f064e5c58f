/-!
Model of `TrieVecs<KEY,DATA_TYPE>` (src/nlp_common/TrieVecs.h), the trie in which the n-gram tables keep their counts.

A node holds data and an `OrderedVector` of children sorted by key. A value of `T` stands for the contents of that
vector, in order: `node k d children next` is the first pair (key `k`, child node with data `d` and children vector
`children`) followed by the remaining pairs `next`. The data of the root are never written (`insert` and `find` reject the
empty sequence), so a trie is the vector of its root. `OrderedVector` itself is modelled in Verif/OrdVec: C07 shows that
`findPtr`/`push` look up a key and insert a new key at its sorted place, which is what is used here.
Keys are natural numbers (`WordIndex`).
-/
namespace Thot.TrieVecs

/-- TrieVecs.h:50, 119-120: contents of a vector of children. -/
inductive T (D : Type) where
  | nil
  | node (k : Nat) (d : D) (children next : T D)
  deriving DecidableEq

variable {D : Type}

/-- TrieVecs.h:150-168 (`insert`) below a freshly pushed node: every remaining key gets a new node with
default-constructed data; the last one gets `d`. -/
def chain (dflt d : D) : List Nat → T D
  | [] => .nil
  | [k] => .node k d .nil .nil
  | k :: k' :: ks => .node k dflt (chain dflt d (k' :: ks)) .nil

/-- TrieVecs.h:138-168 `insert`: `findPtr(k)` among the children; if absent `push` a new node at the place given by the
order of the keys; the data of the last node become `d`. The empty sequence inserts nothing. -/
def insert (dflt d : D) : T D → List Nat → T D
  | t, [] => t
  | .nil, k :: ks => chain dflt d (k :: ks)
  | .node k' d' c n, k :: ks =>
    if k = k' then
      if ks = [] then .node k' d c n else .node k' d' (insert dflt d c ks) n
    else if k < k' then
      .node k (if ks = [] then d else dflt) (chain dflt d ks) (.node k' d' c n)
    else .node k' d' c (insert dflt d n (k :: ks))

/-- TrieVecs.h:172-195 `find`: the data of the node reached (null, `none`, for the empty sequence). -/
def find : T D → List Nat → Option D
  | _, [] => none
  | .nil, _ :: _ => none
  | .node k' d' c n, k :: ks =>
    if k = k' then (if ks = [] then some d' else find c ks) else find n (k :: ks)

/-- Writing `f(*p)` through the pointer `p` returned by `find` (TrieVecs.h:194). -/
def modify (f : D → D) : T D → List Nat → T D
  | t, [] => t
  | .nil, _ :: _ => .nil
  | .node k' d' c n, k :: ks =>
    if k = k' then (if ks = [] then .node k' (f d') c n else .node k' d' (modify f c ks) n)
    else .node k' d' c (modify f n (k :: ks))

/-- TrieVecs.h:199-217 `size`, for the subtries of a vector of children. -/
def sizeCh : T D → Nat
  | .nil => 0
  | .node _ _ c n => (1 + sizeCh c) + sizeCh n

/-- TrieVecs.h:199-217 `size`: nodes, the root included. -/
def size (t : T D) : Nat := 1 + sizeCh t

/-- TrieVecs.h:289-302 `clear`. -/
def clear (_ : T D) : T D := .nil

/-- TrieVecs.h:73-112: one level of a `const_iterator`: the node (its data) in `vecTrieVecsPtr` and the position of its
iterator in `childrenIterVec` (the children not yet left behind; the first one is the child on the path, if any). The
additional element that the constructor leaves at the bottom of `childrenIterVec` is never used and is left out. -/
structure Frame (D : Type) where
  data : D
  pos : T D
  deriving DecidableEq

/-- A `const_iterator`: levels and keys, deepest first. `[]` levels: `end()`. -/
structure Iter (D : Type) where
  path : List (Frame D)
  keys : List Nat
  deriving DecidableEq

/-- `++` of an `OrderedVector` iterator: stays at the end (OrderedVector.h:458-473). -/
def next : T D → T D
  | .nil => .nil
  | .node _ _ _ n => n

/-- TrieVecs.h:92-99, 368-374: push the first child while there are children. `t` is the vector of children of the
deepest node, whose data are `d`. -/
def descend : D → T D → List (Frame D) → List Nat → Iter D
  | d, .nil, p, ks => ⟨⟨d, .nil⟩ :: p, ks⟩
  | d, .node k d' c n, p, ks => descend d' c (⟨d, .node k d' c n⟩ :: p) (k :: ks)

/-- TrieVecs.h:85-103, 315-320 `begin`; `d0` is the data of the root. -/
def begin (d0 : D) (t : T D) : Iter D := descend d0 t [] []

/-- TrieVecs.h:362-375: if the deepest node has a further child, go down to its deepest first descendant. -/
def enter (it : Iter D) : Iter D :=
  match it.path with
  | ⟨d, .node k d' c n⟩ :: p => descend d' c (⟨d, .node k d' c n⟩ :: p) (k :: it.keys)
  | _ => it

/-- TrieVecs.h:335-378 `operator++`. -/
def incr (it : Iter D) : Iter D :=
  match it.path with
  | [] => it
  | f :: p =>
    match next f.pos with
    | .nil =>
      match p with
      | [] => ⟨[], it.keys.tail⟩
      | g :: p' => enter ⟨⟨g.data, next g.pos⟩ :: p', it.keys.tail⟩
    | m => enter ⟨⟨f.data, m⟩ :: p, it.keys⟩

/-- TrieVecs.h:400-414 `operator*`. -/
def deref (it : Iter D) : Option (List Nat × D) :=
  match it.path with
  | [] => none
  | f :: _ => some (it.keys.reverse, f.data)

/-- `for(it=begin();it!=end();++it) collect(*it)`, for at most `fuel` iterations. -/
def collect : Nat → Iter D → List (List Nat × D)
  | 0, _ => []
  | f + 1, it => match deref it with
    | none => []
    | some x => x :: collect f (incr it)

end Thot.TrieVecs
