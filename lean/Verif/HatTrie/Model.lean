import Verif.Common.AMap
/-!
Model of the hash array mapped trie used by the trie phrase table: `/repo/src/hat_trie/htrie_hash.h` (and `htrie_map.h`, which forwards to it).

Characters are their codes (`as_position`); a key is the list of its codes. The hash table of a hash node (`array_map`) is an association list; its
order stands for the unspecified order of the buckets. The array of 256 pointers to children is the list of the children that are not null, in the
order of their codes. Hash functions, load factors and memory are not modelled.
-/
namespace Thot.HatTrie

open Thot

abbrev Key := List Nat

mutual
/-- A node: a hash node with its table, or a trie node with its value node and its children (htrie_hash.h:147-432). -/
inductive Node (V : Type) where
  | hash (m : List (Key × V))
  | trie (v : Option V) (ch : Kids V)
/-- The children of a trie node that are not null (htrie_hash.h:378-397). -/
inductive Kids (V : Type) where
  | nil
  | cons (c : Nat) (n : Node V) (r : Kids V)
end

variable {V : Type}

/-- `child(c)` (htrie_hash.h:362-368). -/
def Kids.get : Kids V → Nat → Option (Node V)
  | .nil, _ => none
  | .cons d n r, c => if d = c then some n else r.get c

/-- `set_child` with a node (htrie_hash.h:378-385). -/
def Kids.set : Kids V → Nat → Node V → Kids V
  | .nil, c, n => .cons c n .nil
  | .cons d m r, c, n => if c < d then .cons c n (.cons d m r) else if c = d then .cons c n r else .cons d m (r.set c n)

/-- `child(c).reset(nullptr)` (htrie_hash.h:1358). -/
def Kids.del : Kids V → Nat → Kids V
  | .nil, _ => .nil
  | .cons d m r, c => if d = c then r else .cons d m (r.del c)

/-- `first_child` (htrie_hash.h:277-289). -/
def Kids.first : Kids V → Option (Nat × Node V)
  | .nil => none
  | .cons c n _ => some (c, n)

/-- `next_child`: the first child with a greater code (htrie_hash.h:295-312). -/
def Kids.nextAfter : Kids V → Nat → Option (Nat × Node V)
  | .nil, _ => none
  | .cons d n r, c => if c < d then some (d, n) else r.nextAfter c

/-- `nb_children` (htrie_hash.h:341-350). -/
def Kids.count : Kids V → Nat
  | .nil => 0
  | .cons _ _ r => r.count + 1

/-- A change of all the children (used by `burst_children`). -/
def Kids.mapN (f : Node V → Node V) : Kids V → Kids V
  | .nil => .nil
  | .cons c n r => .cons c (f n) (r.mapN f)

/-! ### Look-up -/

/-- `find_impl` (htrie_hash.h:1382-1422): the value of the key. -/
def find : Key → Node V → Option V
  | k, .hash m => AMap.lk m k
  | [], .trie v _ => v
  | c :: k, .trie _ ch => match ch.get c with
    | none => none
    | some n => find k n

/-! ### Insertion -/

/-- `emplace_ks` of the hash table of a node: an element that is already there is not changed (htrie_hash.h:1300). -/
def emplace (m : List (Key × V)) (k : Key) (v : V) : List (Key × V) × Bool :=
  match AMap.lk m k with
  | none => (AMap.put m k v, true)
  | some _ => (m, false)

/-- An element of the table that is burst (htrie_hash.h:1520-1528). -/
def burstAdd (a : Option V × Kids V) (e : Key × V) : Option V × Kids V :=
  match e.1 with
  | [] => (some e.2, a.2)
  | c :: k => match a.2.get c with
    | some (.hash m) => (a.1, a.2.set c (.hash (emplace m k e.2).1))
    | _ => (a.1, a.2.set c (.hash (emplace [] k e.2).1))

/-- `burst` and `burst_children` (htrie_hash.h:1513-1535, 1613-1625): children that need it are burst too. The first argument bounds the
number of nested calls. -/
def burst (th : Nat) : Nat → List (Key × V) → Node V
  | 0, m => .trie (m.foldl burstAdd (none, .nil)).1 (m.foldl burstAdd (none, .nil)).2
  | f + 1, m => .trie (m.foldl burstAdd (none, .nil)).1 ((m.foldl burstAdd (none, .nil)).2.mapN fun n => match n with
    | .hash s => if th ≤ s.length then burst th f s else .hash s
    | .trie v ch => .trie v ch)

/-- The number of characters of the keys: a bound for the nested calls. -/
def total (m : List (Key × V)) : Nat := (m.map fun e => e.1.length).sum

/-- A hash node that needs it is burst (htrie_hash.h:1281-1298, 1497-1499). -/
def prepare (th : Nat) : Node V → Node V
  | .hash m => if th ≤ m.length then burst th (total m) m else .hash m
  | n => n

/-- `insert_impl` and `insert_in_hash_node` (htrie_hash.h:1226-1308): the new node, and whether the key was inserted. -/
def insert (th : Nat) (v : V) : Key → Node V → Node V × Bool
  | k, n => match k, prepare th n with
    | k, .hash m => (.hash (emplace m k v).1, (emplace m k v).2)
    | [], .trie w ch => match w with
      | some _ => (.trie w ch, false)
      | none => (.trie (some v) ch, true)
    | c :: k, .trie w ch => match ch.get c with
      | none => (.trie w (ch.set c (.hash (emplace [] k v).1)), true)
      | some n => (.trie w (ch.set c (insert th v k n).1), (insert th v k n).2)

/-- Assignment to the value found (htrie_hash.h:568-580). -/
def assign (v : V) : Key → Node V → Node V
  | k, .hash m => .hash (AMap.put m k v)
  | [], .trie _ ch => .trie (some v) ch
  | c :: k, .trie w ch => match ch.get c with
    | none => .trie w ch
    | some n => .trie w (ch.set c (assign v k n))

/-! ### The map -/

/-- `m_root` and `m_nb_elements` (htrie_hash.h:1706-1707). -/
structure State (V : Type) where
  root : Option (Node V)
  nb : Nat

/-- The burst threshold: at least 4 (htrie_hash.h:1127-1130, 1704). -/
def threshold (th : Nat) : Nat := max 4 th

/-- A new map (htrie_hash.h:763-769), and `clear` (htrie_hash.h:908-911). -/
def State.new : State V := ⟨none, 0⟩

/-- `find` (htrie_hash.h:1064-1078). -/
def State.find (st : State V) (k : Key) : Option V :=
  match st.root with
  | none => none
  | some n => HatTrie.find k n

/-- `insert` (htrie_hash.h:914-924). -/
def State.insert (th : Nat) (st : State V) (k : Key) (v : V) : State V × Bool :=
  let r := HatTrie.insert (threshold th) v k (st.root.getD (.hash []))
  (⟨some r.1, if r.2 then st.nb + 1 else st.nb⟩, r.2)

/-- `access_operator` and an assignment to the reference (htrie_hash.h:1044-1053); `d` is `U{}`. -/
def State.put (th : Nat) (d : V) (st : State V) (k : Key) (v : V) : State V :=
  match st.find k with
  | some _ => ⟨st.root.map (assign v k), st.nb⟩
  | none =>
    let s := (st.insert th k d).1
    ⟨s.root.map (assign v k), s.nb⟩

/-! ### Iterators -/

/-- A position: the codes on the way to a node, and the value of a trie node or an element of the table of a hash node (htrie_hash.h:446-454, 748-757). -/
structure Pos where
  path : List Nat
  idx : Option Nat
deriving DecidableEq

/-- An iterator: at an element, at the end, or undefined (a null pointer or an element of an empty table is used). -/
inductive Cur where
  | at (p : Pos)
  | fin
  | bad
deriving DecidableEq

/-- The node of a path. -/
def nodeAt : List Nat → Node V → Option (Node V)
  | [], n => some n
  | _ :: _, .hash _ => none
  | c :: p, .trie _ ch => match ch.get c with
    | none => none
    | some n => nodeAt p n

/-- `set_current_hash_node` and the constructor for a hash node (htrie_hash.h:478-485, 723-730). -/
def atHash (path : List Nat) (m : List (Key × V)) : Cur := if m.isEmpty then .bad else .at ⟨path, some 0⟩

mutual
/-- `set_most_left_descendant_as_next_node`, `cbegin` with a node and `most_left_descendant_value` (htrie_hash.h:318-337, 706-721, 1145-1162). -/
def mostLeft : List Nat → Node V → Cur
  | path, .hash m => atHash path m
  | path, .trie v ch => match v with
    | some _ => .at ⟨path, none⟩
    | none => Kids.left path ch
/-- The same for the first child (htrie_hash.h:322-337). A trie node without value and children gives a null pointer. -/
def Kids.left : List Nat → Kids V → Cur
  | _, .nil => .bad
  | path, .cons c n _ => mostLeft (path ++ [c]) n
end

/-- `set_next_node_ascending` (htrie_hash.h:686-704) and `cend` with a node (htrie_hash.h:1164-1188): `rpath` is the path of the node, from the
node upwards. -/
def ascend (root : Node V) : List Nat → Cur
  | [] => .fin
  | c :: up => match nodeAt up.reverse root with
    | some (.trie _ ch) => match ch.nextAfter c with
      | some (d, n) => mostLeft (up.reverse ++ [d]) n
      | none => ascend root up
    | _ => .bad

/-- `operator++` (htrie_hash.h:590-626), without a prefix. -/
def next (root : Node V) (p : Pos) : Cur :=
  match p.idx, nodeAt p.path root with
  | none, some (.trie _ ch) => match ch.first with
    | some (c, n) => mostLeft (p.path ++ [c]) n
    | none => ascend root p.path.reverse
  | some i, some (.hash m) => if i + 1 < m.length then .at ⟨p.path, some (i + 1)⟩ else ascend root p.path.reverse
  | _, _ => .bad

/-- `begin` (htrie_hash.h:835-845). -/
def State.begin (st : State V) : Cur :=
  if st.nb = 0 then .fin else match st.root with
  | none => .bad
  | some n => mostLeft [] n

/-- `key` and `value` of an iterator (htrie_hash.h:539-580). -/
def entryAt (root : Node V) (p : Pos) : Option (Key × V) :=
  match p.idx, nodeAt p.path root with
  | none, some (.trie v _) => v.map fun x => (p.path, x)
  | some i, some (.hash m) => m[i]?.map fun e => (p.path ++ e.1, e.2)
  | _, _ => none

/-- The key of an element of the table has the prefix: `filter_prefix` (htrie_hash.h:668-680). -/
def hasPrefix (f : Key) (e : Key × V) : Bool := f.isPrefixOf e.1

/-- `filter_prefix` from the element `i` of a table (htrie_hash.h:668-680): the first element with the prefix from there, or what follows the node. -/
def filterFrom (root : Node V) (path : List Nat) (f : Key) (m : List (Key × V)) : Nat → Nat → Cur
  | 0, _ => ascend root path.reverse
  | g + 1, i => match m[i]? with
    | none => ascend root path.reverse
    | some e => if hasPrefix f e then .at ⟨path, some i⟩ else filterFrom root path f m g (i + 1)

/-- `operator++` of a prefix iterator in a hash node with the prefix `f` (htrie_hash.h:609-626). -/
def nextPre (root : Node V) (f : Key) (p : Pos) : Cur :=
  match p.idx, nodeAt p.path root with
  | some i, some (.hash m) => filterFrom root p.path f m (m.length + 1) (i + 1)
  | _, _ => .bad

/-- A range of a prefix: the first iterator, the end, and the prefix that remains to be compared (htrie_hash.h:1436-1471). -/
structure Range where
  first : Cur
  last : Cur
  filt : Key

/-- `equal_prefix_range_impl` (htrie_hash.h:1436-1471): `path` is the path of the current node. -/
def prefixRange (root : Node V) (path : List Nat) : Key → Node V → Range
  | f, .hash m => if f.isEmpty then ⟨atHash path m, ascend root path.reverse, []⟩
      else if m.isEmpty then ⟨.bad, ascend root path.reverse, f⟩
      else ⟨filterFrom root path f m (m.length + 1) 0, ascend root path.reverse, f⟩
  | [], .trie v ch => ⟨mostLeft path (.trie v ch), ascend root path.reverse, []⟩
  | c :: f, .trie _ ch => match ch.get c with
    | none => ⟨.fin, .fin, []⟩
    | some n => prefixRange root (path ++ [c]) f n

/-- `equal_prefix_range` (htrie_hash.h:1090-1106). -/
def State.prefixRange (st : State V) (f : Key) : Range :=
  match st.root with
  | none => ⟨.fin, .fin, []⟩
  | some n => HatTrie.prefixRange n [] f n

/-! ### Removal -/

/-- A child from which an element was removed: `clear_empty_nodes` if its table is empty now (htrie_hash.h:1349-1376). -/
def clearUp (v : Option V) (ch : Kids V) (c : Nat) : Node V → Node V
  | .hash [] => if v.isSome || decide (1 < ch.count) then .trie v (ch.del c) else .hash []
  | n => .trie v (ch.set c n)

/-- Removal of a key that is in the node (htrie_hash.h:1314-1340). -/
def eraseN : Key → Node V → Node V
  | k, .hash m => .hash (AMap.del m k)
  | [], .trie _ ch => .trie none ch
  | c :: k, .trie v ch => match ch.get c with
    | none => .trie v ch
    | some n => clearUp v ch c (eraseN k n)

/-- The path of the element of a key, with the index in its table. -/
def posOf : List Nat → Key → Node V → Option Pos
  | path, k, .hash m => if AMap.lk m k = none then none else some ⟨path, some (m.findIdx fun e => decide (e.1 = k))⟩
  | path, [], .trie v _ => if v.isSome then some ⟨path, none⟩ else none
  | path, c :: k, .trie _ ch => match ch.get c with
    | none => none
    | some n => posOf (path ++ [c]) k n

/-- `erase` with a key (htrie_hash.h:943-953, 1314-1340): `none` if `std::next` of its position is undefined. -/
def State.erase (st : State V) (k : Key) : Option (State V × Nat) :=
  match st.root with
  | none => some (st, 0)
  | some n => match posOf [] k n with
    | none => some (st, 0)
    | some p => if next n p = .bad then none else some (⟨some (eraseN k n), st.nb - 1⟩, 1)

end Thot.HatTrie
