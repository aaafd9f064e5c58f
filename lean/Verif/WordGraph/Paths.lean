import Verif.WordGraph.Spec

/-! Lemmas about paths of word graphs. -/

namespace Thot.WordGraph

theorem Path.mono {P Q : Nat → Arc → Prop} (h : ∀ i a, P i a → Q i a) {s t : Nat} {p : List (Nat × Arc)}
    (hp : Path P s p t) : Path Q s p t := by
  induction hp with
  | nil => exact .nil _
  | cons h1 _ ih => exact .cons (h _ _ h1) ih

theorem Path.append {P : Nat → Arc → Prop} {s t u : Nat} {p q : List (Nat × Arc)}
    (hp : Path P s p t) (hq : Path P t q u) : Path P s (p ++ q) u := by
  induction hp with
  | nil => exact hq
  | cons h1 _ ih => exact .cons h1 (ih hq)

theorem Path.snoc {P : Nat → Arc → Prop} {s : Nat} {p : List (Nat × Arc)} {i : Nat} {a : Arc}
    (hp : Path P s p a.pred) (h : P i a) : Path P s (p ++ [(i, a)]) a.succ :=
  hp.append (.cons h (.nil _))

theorem Path.split {P : Nat → Arc → Prop} {s u : Nat} {q : List (Nat × Arc)} :
    ∀ {p : List (Nat × Arc)}, Path P s (p ++ q) u → ∃ t, Path P s p t ∧ Path P t q u := by
  intro p h
  induction p generalizing s with
  | nil => exact ⟨s, .nil _, h⟩
  | cons e p ih =>
    rw [List.cons_append] at h
    cases h with
    | cons h1 h2 =>
      obtain ⟨t, h3, h4⟩ := ih h2
      exact ⟨t, .cons h1 h3, h4⟩

theorem Path.nil_eq {P : Nat → Arc → Prop} {s t : Nat} (h : Path P s [] t) : t = s := by
  cases h; rfl

theorem Path.inv {P : Nat → Arc → Prop} {s t : Nat} {p : List (Nat × Arc)} (h : Path P s p t) :
    (p = [] ∧ t = s) ∨ ∃ i a p', p = (i, a) :: p' ∧ s = a.pred ∧ P i a ∧ Path P a.succ p' t := by
  cases h with
  | nil => exact Or.inl ⟨rfl, rfl⟩
  | cons h1 h2 => exact Or.inr ⟨_, _, _, rfl, rfl, h1, h2⟩

theorem Path.mem {P : Nat → Arc → Prop} {s t : Nat} {p : List (Nat × Arc)} (hp : Path P s p t) :
    ∀ e ∈ p, P e.1 e.2 := by
  induction hp with
  | nil => simp
  | cons h1 _ ih =>
    intro e he
    rcases List.mem_cons.1 he with rfl | he
    · exact h1
    · exact ih e he

theorem Path.restrict {P Q : Nat → Arc → Prop} {s t : Nat} {p : List (Nat × Arc)} (hp : Path P s p t)
    (h : ∀ e ∈ p, Q e.1 e.2) : Path Q s p t := by
  induction hp with
  | nil => exact .nil _
  | cons h1 _ ih =>
    exact .cons (h _ (List.mem_cons_self ..)) (ih fun e he => h e (List.mem_cons_of_mem _ he))

theorem score_append (w : Nat → Arc → Score) (p q : List (Nat × Arc)) : score w (p ++ q) = score w p + score w q := by
  induction p with
  | nil => simp [score, Rat.zero_add]
  | cons e p ih => simp only [List.cons_append, score, ih]; grind

theorem score_snoc (w : Nat → Arc → Score) (p : List (Nat × Arc)) (i : Nat) (a : Arc) :
    score w (p ++ [(i, a)]) = score w p + w i a := by
  rw [score_append]; simp [score, Rat.add_zero]

/-- Consecutive arcs of a path have increasing numbers. -/
theorem Topo.lt {g : WG} (ht : Topo g) {i j : Nat} {a b : Arc} (ha : g.arcs[i]? = some a)
    (hb : g.arcs[j]? = some b) (h : a.succ = b.pred) : i < j := by
  apply Classical.byContradiction
  intro hn
  exact ht j i b a hb ha (by omega) h

theorem Path.increasing {g : WG} (ht : Topo g) {P : Nat → Arc → Prop} (hP : ∀ i a, P i a → g.arcs[i]? = some a)
    {s t : Nat} {p : List (Nat × Arc)} (hp : Path P s p t) :
    (p.map Prod.fst).Pairwise (· < ·) ∧ ∀ e ∈ p.head?, e.2.pred = s := by
  induction hp with
  | nil => simp
  | @cons i a p t h1 h2 ih =>
    refine ⟨?_, by simp⟩
    obtain ⟨ih1, ih2⟩ := ih
    rw [List.map_cons, List.pairwise_cons]
    refine ⟨?_, ih1⟩
    cases p with
    | nil => simp
    | cons e p =>
      have he : e.2.pred = a.succ := ih2 e (by simp)
      have hlt : i < e.1 := ht.lt (hP _ _ h1) (hP _ _ (h2.mem e (by simp))) he.symm
      intro x hx
      rw [List.map_cons] at hx ih1
      rcases List.mem_cons.1 hx with rfl | hx
      · exact hlt
      · exact Nat.lt_trans hlt ((List.pairwise_cons.1 ih1).1 x hx)

/-- Arcs numbered below `k`. -/
def Below (P : Nat → Arc → Prop) (k : Nat) (i : Nat) (a : Arc) : Prop := i < k ∧ P i a

/-- Arcs numbered at least `k`. -/
def From (P : Nat → Arc → Prop) (k : Nat) (i : Nat) (a : Arc) : Prop := k ≤ i ∧ P i a

theorem Path.below_mono {P : Nat → Arc → Prop} {k m : Nat} (h : k ≤ m) {s t : Nat} {p : List (Nat × Arc)}
    (hp : Path (Below P k) s p t) : Path (Below P m) s p t :=
  hp.mono fun _ _ h1 => ⟨Nat.lt_of_lt_of_le h1.1 h, h1.2⟩

theorem path_below_succ {g : WG} (ht : Topo g) {P : Nat → Arc → Prop} (hP : ∀ i a, P i a → g.arcs[i]? = some a)
    {k s t : Nat} {p : List (Nat × Arc)} (hp : Path (Below P (k + 1)) s p t) :
    Path (Below P k) s p t ∨
      ∃ a p', P k a ∧ a.succ = t ∧ p = p' ++ [(k, a)] ∧ Path (Below P k) s p' a.pred := by
  induction hp with
  | nil => exact Or.inl (.nil _)
  | @cons i a p t h1 h2 ih =>
    have hinc := (Path.cons h1 h2).increasing ht (fun i a h => hP i a h.2)
    simp only [List.map_cons, List.pairwise_cons] at hinc
    rcases ih with h | ⟨b, p', hb, hbt, rfl, h⟩
    · by_cases hi : i < k
      · exact Or.inl (.cons ⟨hi, h1.2⟩ h)
      · have hik : i = k := by have := h1.1; omega
        subst hik
        cases p with
        | nil => exact Or.inr ⟨a, [], h1.2, h.nil_eq.symm, rfl, .nil _⟩
        | cons e p =>
          have := hinc.1.1 e.1 (by simp)
          have := (h.mem e (by simp)).1
          omega
    · have : i < k := hinc.1.1 k (by simp)
      exact Or.inr ⟨b, (i, a) :: p', hb, hbt, rfl, .cons ⟨this, h1.2⟩ h⟩

theorem path_from_succ {g : WG} (ht : Topo g) {P : Nat → Arc → Prop} (hP : ∀ i a, P i a → g.arcs[i]? = some a)
    {k s t : Nat} {p : List (Nat × Arc)} (hp : Path (From P k) s p t) :
    Path (From P (k + 1)) s p t ∨
      ∃ a p', P k a ∧ a.pred = s ∧ p = (k, a) :: p' ∧ Path (From P (k + 1)) a.succ p' t := by
  cases hp with
  | nil => exact Or.inl (.nil _)
  | @cons i a p t h1 h2 =>
    have hinc := (Path.cons h1 h2).increasing ht (fun i a h => hP i a h.2)
    simp only [List.map_cons, List.pairwise_cons] at hinc
    have hrest : Path (From P (k + 1)) a.succ p t := h2.restrict fun e he => by
      have h3 := hinc.1.1 e.1 (List.mem_map.2 ⟨e, he, rfl⟩)
      have := h1.1
      exact ⟨by omega, (h2.mem e he).2⟩
    by_cases hi : i = k
    · subst hi; exact Or.inr ⟨a, p, h1.2, rfl, rfl, hrest⟩
    · exact Or.inl (.cons ⟨by have := h1.1; omega, h1.2⟩ hrest)

theorem path_below_all {g : WG} {P : Nat → Arc → Prop} (hP : ∀ i a, P i a → g.arcs[i]? = some a)
    {s t : Nat} {p : List (Nat × Arc)} : Path (Below P g.arcs.length) s p t ↔ Path P s p t := by
  constructor
  · exact fun h => h.mono fun _ _ h => h.2
  · exact fun h => h.mono fun i a h => ⟨(List.getElem?_eq_some_iff.1 (hP i a h)).1, h⟩

theorem path_from_zero {P : Nat → Arc → Prop} {s t : Nat} {p : List (Nat × Arc)} :
    Path (From P 0) s p t ↔ Path P s p t :=
  ⟨fun h => h.mono fun _ _ h => h.2, fun h => h.mono fun _ _ h => ⟨Nat.zero_le _, h⟩⟩

theorem path_below_zero {P : Nat → Arc → Prop} {s t : Nat} {p : List (Nat × Arc)} (h : Path (Below P 0) s p t) :
    p = [] ∧ t = s := by
  cases h with
  | nil => exact ⟨rfl, rfl⟩
  | cons h1 _ => exact absurd h1.1 (by omega)

theorem path_from_all {g : WG} {P : Nat → Arc → Prop} (hP : ∀ i a, P i a → g.arcs[i]? = some a)
    {s t : Nat} {p : List (Nat × Arc)} (h : Path (From P g.arcs.length) s p t) : p = [] ∧ t = s := by
  cases h with
  | nil => exact ⟨rfl, rfl⟩
  | cons h1 _ =>
    have := (List.getElem?_eq_some_iff.1 (hP _ _ h1.2)).1
    exact absurd h1.1 (by omega)

theorem score_nonpos {w : Nat → Arc → Score} {P : Nat → Arc → Prop} (hw : ∀ i a, P i a → w i a ≤ 0)
    {s t : Nat} {p : List (Nat × Arc)} (hp : Path P s p t) : score w p ≤ 0 := by
  induction hp with
  | nil => exact Rat.le_refl
  | cons h1 _ ih => have := hw _ _ h1; simp only [score]; grind

end Thot.WordGraph
