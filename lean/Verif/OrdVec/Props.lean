import Verif.OrdVec.Lemmas
/-!
C07, C08: `OrderedVector` refines a finite map ordered by the key order.
-/
namespace Thot.OrdVec
open Classical

variable {K D : Type}

/-- The public mutating operations. `d0` of `index`/`assign` is whatever a default-initialised `DATA`
happens to contain. -/
inductive Op (K D : Type) where
  | push (k : K) (d : D)
  | index (k : K) (d0 : D)
  | assign (k : K) (d0 d : D)
  | pop
  | clear

/-- Model of one call. -/
def step (lt : K → K → Bool) (v : Vec K D) : Op K D → Option (Vec K D)
  | .push k d => push lt v k d
  | .index k d0 => index lt d0 v k
  | .assign k d0 d => assign lt d0 v k d
  | .pop => some (pop v)
  | .clear => some (clear v)

def run (lt : K → K → Bool) : Vec K D → List (Op K D) → Option (Vec K D)
  | v, [] => some v
  | v, op :: ops => (step lt v op).bind (fun v' => run lt v' ops)

/-- Specification state: key ↦ data. Keys are identified when neither is smaller than the other. -/
abbrev Spec (K D : Type) := K → Option D

/-- `k` has an entry in `f` and no entry of `f` has a greater key. -/
def IsGreatest (lt : K → K → Bool) (f : Spec K D) (k : K) : Prop :=
  f k ≠ none ∧ ∀ k', f k' ≠ none → lt k k' = false

/-- Specification of one call. -/
noncomputable def specStep (lt : K → K → Bool) (f : Spec K D) : Op K D → Spec K D
  | .push k d => fun x => if Equiv lt x k then some d else f x
  | .index k d0 => fun x => if Equiv lt x k then (if f k = none then some d0 else f x) else f x
  | .assign k _ d => fun x => if Equiv lt x k then some d else f x
  | .pop => fun x => if IsGreatest lt f x then none else f x
  | .clear => fun _ => none

noncomputable def specRun (lt : K → K → Bool) (f : Spec K D) (ops : List (Op K D)) : Spec K D :=
  ops.foldl (specStep lt) f

/-- Refinement relation. -/
def Refines (lt : K → K → Bool) (v : Vec K D) (f : Spec K D) : Prop :=
  Sorted lt v ∧ ∀ x, lookup lt v x = f x

theorem Refines.step {lt : K → K → Bool} (hlt : StrictWeak lt) {v : Vec K D} {f : Spec K D}
    (h : Refines lt v f) (op : Op K D) :
    ∃ v', step lt v op = some v' ∧ Refines lt v' (specStep lt f op) := by
  obtain ⟨hs, hf⟩ := h
  have hpush : ∀ (v : Vec K D), Sorted lt v → ∀ k d, ∃ v', push lt v k d = some v' ∧ Sorted lt v' ∧
      ∀ x, lookup lt v' x = if Equiv lt x k then some d else lookup lt v x := by
    intro v hs k d
    obtain ⟨v', h1, h2, h3⟩ := push_spec hlt hs k d
    exact ⟨v', h1, h2, h3⟩
  cases op with
  | push k d =>
    obtain ⟨v', h1, h2, h3⟩ := hpush v hs k d
    refine ⟨v', h1, h2, fun x => ?_⟩
    simp only [specStep, h3, hf]
  | index k d0 =>
    obtain ⟨v', h1, h2, h3⟩ := index_spec hlt hs k d0
    refine ⟨v', h1, h2, fun x => ?_⟩
    simp only [specStep, h3, hf]
  | assign k d0 d =>
    obtain ⟨v', h1, h2, h3⟩ := assign_spec hlt hs k d0 d
    refine ⟨v', h1, h2, fun x => ?_⟩
    simp only [specStep, h3, hf]
  | pop =>
    refine ⟨_, rfl, pop_sorted hs, fun x => ?_⟩
    rw [pop_lookup hlt hs]
    simp only [specStep, IsGreatest, ← hf]
  | clear => exact ⟨_, rfl, .nil, fun x => rfl⟩

theorem Refines.run {lt : K → K → Bool} (hlt : StrictWeak lt) (ops : List (Op K D)) {v : Vec K D}
    {f : Spec K D} (h : Refines lt v f) :
    ∃ v', run lt v ops = some v' ∧ Refines lt v' (specRun lt f ops) := by
  induction ops generalizing v f with
  | nil => exact ⟨v, rfl, h⟩
  | cons op ops ih =>
    obtain ⟨v1, h1, h2⟩ := h.step hlt op
    obtain ⟨v2, h3, h4⟩ := ih h2
    exact ⟨v2, by simp [OrdVec.run, h1, h3], h4⟩

/-- **C07.** For every strict weak order and every history of calls on a new vector: no out-of-range
access happens, `findPtr` reads the specification map, iteration is in strictly increasing key order
(so without equivalent keys), and an entry is listed exactly for the keys of the map (so `size()` is
the number of distinct keys). -/
theorem C07_history {lt : K → K → Bool} (hlt : StrictWeak lt) (ops : List (Op K D)) :
    ∃ v, run lt [] ops = some v ∧
      (∀ k, findPtr lt v k = some (specRun lt (fun _ => none) ops k)) ∧
      v.Pairwise (fun a b => lt a.1 b.1 = true) ∧
      (∀ k d, specRun lt (fun _ => none) ops k = some d ↔ ∃ p ∈ v, Equiv lt k p.1 ∧ p.2 = d) := by
  obtain ⟨v, h1, h2, h3⟩ := Refines.run hlt ops (v := []) (f := fun _ => none)
    ⟨.nil, fun x => rfl⟩
  refine ⟨v, h1, fun k => ?_, h2, fun k d => ?_⟩
  · rw [findPtr_spec hlt h2, h3]
  · rw [← h3]; exact lookup_iff hlt h2 k d

/-- **C08.** On any non-empty reachable vector `top()` is an entry whose key is greatest, with the data
`findPtr` gives, and `pop()` removes that entry and nothing else. -/
theorem C08_top_pop {lt : K → K → Bool} (hlt : StrictWeak lt) (ops : List (Op K D)) (v : Vec K D)
    (hrun : run lt [] ops = some v) (hne : 0 < size v) :
    ∃ p, top v = some p ∧ v = pop v ++ [p] ∧
      findPtr lt v p.1 = some (some p.2) ∧ findPtr lt (pop v) p.1 = some none ∧
      (∀ q ∈ pop v, lt q.1 p.1 = true) ∧
      (∀ k, ¬ Equiv lt k p.1 → findPtr lt (pop v) k = findPtr lt v k) := by
  obtain ⟨v', h1, h2, h3⟩ := Refines.run hlt ops (v := []) (f := fun _ => none)
    ⟨.nil, fun x => rfl⟩
  rw [hrun] at h1; cases h1
  exact top_pop_spec hlt h2 hne

/-- `top()` of an empty vector reads before the array. -/
theorem C08_top_empty : top ([] : Vec K D) = none := rfl

/-- **C07, copies.** A copy has the same contents. -/
theorem C07_copy (v : Vec K D) : copy v = v := by simp [copy]

/-- `<` on `Nat` is an admissible order, so the theorems apply to it. -/
theorem strictWeak_nat : StrictWeak (fun a b : Nat => decide (a < b)) where
  irrefl a := by simp
  trans a b c := by simp; omega
  incomp a b c := by simp [Equiv]; omega

example : run (fun a b : Nat => decide (a < b)) []
    [.push 5 'a', .push 3 'b', .push 9 'c', .push 5 'd', .index 4 'z', .assign 3 'z' 'e', .pop]
    = some [(3, 'e'), (4, 'z'), (5, 'd')] := by decide +kernel

end Thot.OrdVec
