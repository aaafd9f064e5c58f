import Verif.Decoder.Model

/-! Specification of the decoder for requests processed one after another.  There are no threads and no
mutexes: the state is that of the models and the data of the users that are known. -/

namespace Thot.Decoder

variable {M U O : Type}

structure Abs (M U : Type) where
  mem : M
  us : User → Option U

/-- The data of a user; those of an unknown user are new. -/
def Abs.data (initU : M → U) (A : Abs M U) (u : User) : U := (A.us u).getD (initU A.mem)

/-- The steps of the body of an operation in order. -/
def runItems : List (Item M U O) → M → U → M × U × List O
  | [], m, x => (m, x, [])
  | .act f :: l, m, x => let r := f m x; let q := runItems l r.1 r.2.1; (q.1, q.2.1, r.2.2 :: q.2.2)
  | .pre f :: l, m, x => let r := f m x; let q := runItems l r.1 r.2.1; (q.1, q.2.1, r.2.2 :: q.2.2)
  | .look :: l, m, x => runItems l m x

def runUItems : List (UItem M U O) → M → U → U × List O
  | [], _, x => (x, [])
  | .act f :: l, m, x => let r := f m x; let q := runUItems l m r.1; (q.1, r.2 :: q.2)
  | .pre f :: l, m, x => let r := f m x; let q := runUItems l m r.1; (q.1, r.2 :: q.2)

/-- An operation executed on its own: the new state and the results. -/
def seq (initU : M → U) : Op M U O → Abs M U → Abs M U × List O
  | .atomic u body, A =>
    let r := runItems body A.mem (A.data initU u)
    (⟨r.1, upd A.us u (some r.2.1)⟩, r.2.2)
  | .session u body, A =>
    let r := runUItems body A.mem (A.data initU u)
    (⟨A.mem, upd A.us u (some r.1)⟩, r.2)
  | .clear body, A => (⟨body.foldl (fun m f => f m) A.mem, fun _ => none⟩, [])
  | .print body, A => (A, body.map fun f => f A.mem)
  | .initError _ _, A => (A, [])
  | .release _, A => (A, [])

/-- `Seq initU ops A l A'`: from the state `A`, executing one after another the operations of `ops` whose numbers
are in `l` gives the results that are in `l` and the final state `A'`. -/
inductive Seq (initU : M → U) (ops : List (Op M U O)) (A : Abs M U) : List (Nat × List O) → Abs M U → Prop
  | nil : Seq initU ops A [] A
  | snoc {l : List (Nat × List O)} {A' : Abs M U} {t : Nat} {op : Op M U O} : Seq initU ops A l A' → ops[t]? = some op →
      Seq initU ops A (l ++ [(t, (seq initU op A').2)]) (seq initU op A').1

/-- The state of the decoder when no request is being processed. -/
def Shared.abs (sh : Shared M U) : Abs M U :=
  ⟨sh.mem, fun u => if u ∈ sh.users then some (sh.umem (sh.users.idxOf u)) else none⟩

end Thot.Decoder
