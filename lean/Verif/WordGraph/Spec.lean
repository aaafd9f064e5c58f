import Verif.WordGraph.Model

/-! Independent notions used to state the properties of word graphs: paths, their scores, and the
conditions on word graphs stated in `WordGraph.h`. -/

namespace Thot.WordGraph

/-- Arc number `i` of the graph is `a` and it has not been pruned. -/
def Live (g : WG) (i : Nat) (a : Arc) : Prop := g.arcs[i]? = some a ∧ g.pruned[i]? = some false

/-- `Path P s p t`: `p` is a sequence of (numbered) arcs satisfying `P` that leads from state `s` to
state `t`. -/
inductive Path (P : Nat → Arc → Prop) : Nat → List (Nat × Arc) → Nat → Prop
  | nil (s : Nat) : Path P s [] s
  | cons {i : Nat} {a : Arc} {p : List (Nat × Arc)} {t : Nat} :
    P i a → Path P a.succ p t → Path P a.pred ((i, a) :: p) t

/-- Score of a path, given the scores of its arcs. -/
def score (w : Nat → Arc → Score) : List (Nat × Arc) → Score
  | [] => 0
  | e :: p => w e.1 e.2 + score w p

/-- The score stored in the arc. -/
def own (_ : Nat) (a : Arc) : Score := a.score

/-- The arcs are topologically ordered: no arc enters a state that an earlier arc (or the arc itself)
leaves (note in `WordGraph.h:144-148`). -/
def Topo (g : WG) : Prop :=
  ∀ (i j : Nat) (a b : Arc), g.arcs[i]? = some a → g.arcs[j]? = some b → i ≤ j → b.succ ≠ a.pred

/-- Consistency of the data members: one pruning flag and one component vector per arc, both ends of
every arc exist, and every state lists exactly its incoming and outgoing arcs. -/
structure WF (g : WG) : Prop where
  pruned : g.pruned.length = g.arcs.length
  comps : g.comps.length = g.arcs.length
  pred : ∀ (i : Nat) (a : Arc), g.arcs[i]? = some a → a.pred < g.states.length
  succ : ∀ (i : Nat) (a : Arc), g.arcs[i]? = some a → a.succ < g.states.length
  toPred : ∀ (s : Nat) (d : StateData), g.states[s]? = some d →
    d.toPred = (List.range g.arcs.length).filter fun i => (g.arcs[i]?.map Arc.succ) == some s
  toSucc : ∀ (s : Nat) (d : StateData), g.states[s]? = some d →
    d.toSucc = (List.range g.arcs.length).filter fun i => (g.arcs[i]?.map Arc.pred) == some s

/-- All final states exist. -/
def FinalOk (g : WG) : Prop := ∀ f ∈ g.final, f < g.states.length

/-- A complete path: from the initial state to a final state. -/
def Complete (g : WG) (P : Nat → Arc → Prop) (p : List (Nat × Arc)) : Prop :=
  ∃ f ∈ g.final, Path P initialState p f

end Thot.WordGraph
