/-!
Model of `Trie<KEY,DATA_TYPE>` (src/nlp_common/Trie.h).

A node has a key, data, a `next` sibling and `children`; a node is uninitialised when `children==this`.
A trie value stands for a (possibly null) node pointer together with everything reachable from it; the pointers form a
tree (insert only links freshly allocated nodes), so this is exact. `erase` does not compile when instantiated
(Trie.h:268 declares `tprev` as an object and uses it as a pointer) and is not modelled.
-/
namespace Thot.Trie

/-- Trie.h:126-131. `nil` is a null pointer; `raw d` an uninitialised node (`children==this`, `next==NULL`, data `d`);
`node key data children next`. -/
inductive T (K D : Type) where
  | nil
  | raw (d : D)
  | node (k : K) (d : D) (children next : T K D)
  deriving DecidableEq

variable {K D : Type} [DecidableEq K]

/-- Trie.h:142-147 constructor: `dflt` is `DATA_TYPE()`. -/
def new (dflt : D) : T K D := .raw dflt

def isNil : T K D → Bool
  | .nil => true
  | _ => false

/-- Trie.h:242-262 (`insert`) once the current node is a new or uninitialised one with data `d0`: it receives the next
key, and while keys remain a new child is allocated. -/
def chain (dflt : D) (d : D) : D → List K → T K D
  | _, [] => .nil
  | _, [k] => .node k d .nil .nil
  | d0, k :: k' :: ks => .node k d0 (chain dflt d dflt (k' :: ks)) .nil

/-- Trie.h:216-264 `insert`: recursion on the node in place of the loop over `t` (next sibling: same position of the
sequence; child: next position). The empty sequence inserts nothing. -/
def insert (dflt : D) (d : D) : T K D → List K → T K D
  | t, [] => t
  | .nil, _ => .nil
  | .raw d0, k :: ks => chain dflt d d0 (k :: ks)
  | .node k' d' c n, k :: ks =>
    if k' = k then
      if ks.isEmpty then .node k' d c n
      else .node k' d' (if isNil c then chain dflt d dflt ks else insert dflt d c ks) n
    else if isNil n then .node k' d' c (chain dflt d dflt (k :: ks))
    else .node k' d' c (insert dflt d n (k :: ks))

/-- Trie.h:355-388 `getState` (and the node reached by `find`, 320-353): for the empty sequence the root itself. -/
def getState : T K D → List K → T K D
  | t, [] => t
  | .nil, _ => .nil
  | .raw _, _ :: _ => .nil
  | .node k' d c n, k :: ks =>
    if k' = k then
      if ks.isEmpty then .node k' d c n else getState c ks
    else getState n (k :: ks)

/-- Trie.h:523-527 `getData`. -/
def data : T K D → Option D
  | .nil => none
  | .raw d => some d
  | .node _ d _ _ => some d

/-- Trie.h:320-353 `find`: null (`none`) or the address of the data, here its value. -/
def find (t : T K D) (ks : List K) : Option D := data (getState t ks)

/-- `*find(ks) = f(*find(ks))`: writing through the pointer returned by `find` (Trie.h:352). -/
def modify (f : D → D) : T K D → List K → T K D
  | .nil, _ => .nil
  | .raw d, [] => .raw (f d)
  | .node k d c n, [] => .node k (f d) c n
  | .raw d, _ :: _ => .raw d
  | .node k' d c n, k :: ks =>
    if k' = k then
      if ks.isEmpty then .node k' (f d) c n else .node k' d (modify f c ks) n
    else .node k' d c (modify f n (k :: ks))

/-- Trie.h:390-423 `findV`: the data of the nodes traversed. -/
def findV : T K D → List K → List D
  | _, [] => []
  | .nil, _ => []
  | .raw _, _ :: _ => []
  | .node k' d c n, k :: ks => if k' = k then d :: findV c ks else findV n (k :: ks)

/-- Trie.h:530-551 `size`. -/
def size : T K D → Nat
  | .nil => 0
  | .raw _ => 0
  | .node _ _ c n => 1 + size c + size n

/-- Trie.h:566-581 `height(i,r)`. -/
def heightAux (i : Nat) : T K D → Nat → Nat
  | .nil, r => r
  | .raw _, r => max i r
  | .node _ _ c n, r => heightAux i n (heightAux (i + 1) c (max i r))

/-- Trie.h:554-564 `height`. -/
def height (t : T K D) : Nat :=
  match t with
  | .nil => 0
  | .raw _ => 0
  | .node .. => heightAux 1 t 1

/-- Trie.h:641-660 `clear`: children and siblings are freed and the node becomes uninitialised; its data is kept. -/
def clear : T K D → T K D
  | .nil => .nil
  | .raw d => .raw d
  | .node _ d _ _ => .raw d

/-- Trie.h:150-213 copy constructor and assignment: data, children and next are copied, `key` is not; `g` is the value
of a `KEY` that was never assigned (default-constructed, or any value for a primitive type). -/
def copy (g : K) (dflt : D) : T K D → T K D
  | .nil => .nil
  | .raw _ => .raw dflt
  | .node _ d c n => .node g d (copy g dflt c) (copy g dflt n)

/-- Trie.h:80-121 state of a `const_iterator`: stack of nodes (deepest first; `[]` stands for the single null pointer of
`end()`) and the keys of the stack, deepest first. The data field always holds the data of the deepest node. -/
structure Iter (K D : Type) where
  path : List (T K D)
  keys : List K
  deriving DecidableEq

/-- Trie.h:104-109, 719-724: `while(deepest.children!=NULL)` push the first child. -/
def descend : T K D → List (T K D) → List K → Iter K D
  | .node k d (.node k' d' c' n') n, p, ks => descend (.node k' d' c' n') (.node k d (.node k' d' c' n') n :: p) (k :: ks)
  | .node k d c n, p, ks => ⟨.node k d c n :: p, k :: ks⟩
  | _, p, ks => ⟨p, ks⟩

/-- Trie.h:93-113, 672-677 `begin` (of the node `t`). -/
def begin (t : T K D) : Iter K D :=
  match t with
  | .node .. => descend t [] []
  | _ => ⟨[], []⟩

/-- Trie.h:690-729 `operator++`. -/
def incr (it : Iter K D) : Iter K D :=
  match it.path with
  | [] => it
  | .node _ _ _ (.node k d c n) :: p => descend (.node k d c n) p it.keys.tail
  | _ :: p => ⟨p, it.keys.tail⟩

/-- Trie.h:764-767 `operator*`: key sequence from the starting node to the deepest node, and its data. -/
def deref (it : Iter K D) : Option (List K × D) :=
  match it.path with
  | [] => none
  | t :: _ => (data t).map (fun d => (it.keys.reverse, d))

/-- `for(it=begin();it!=end();++it) collect(*it)`, for at most `fuel` iterations. -/
def collect : Nat → Iter K D → List (List K × D)
  | 0, _ => []
  | f + 1, it => match deref it with
    | none => []
    | some x => x :: collect f (incr it)

end Thot.Trie
