import Verif.WordAlig.Lemmas
/-!
C09–C14, C38: word alignment matrices. A link of `A` is a cell `i<A.I, j<A.J` with non-zero value.
-/
namespace Thot.WordAlig

/-- Specification view: `(i,j)` is a link of `A`. -/
def Link (A : Mat) (i j : Nat) : Prop := i < A.I ∧ j < A.J ∧ A.m i j ≠ 0

/-- Row word `i` has a link. -/
def RowAligned (A : Mat) (i : Nat) : Prop := ∃ j, Link A i j
/-- Column word `j` has a link. -/
def ColAligned (A : Mat) (j : Nat) : Prop := ∃ i, Link A i j
/-- A link directly above or below. -/
def VertNeigh (A : Mat) (i j : Nat) : Prop := ∃ i', (i' + 1 = i ∨ i' = i + 1) ∧ Link A i' j
/-- A link directly left or right. -/
def HorizNeigh (A : Mat) (i j : Nat) : Prop := ∃ j', (j' + 1 = j ∨ j' = j + 1) ∧ Link A i j'
/-- A link at one of the eight surrounding cells. -/
def Neigh8 (A : Mat) (i j : Nat) : Prop :=
  ∃ i' j', (i', j') ≠ (i, j) ∧ i' ≤ i + 1 ∧ i ≤ i' + 1 ∧ j' ≤ j + 1 ∧ j ≤ j' + 1 ∧ Link A i' j'

/-- Same dimensions, and the links of `M'` are those of `M` plus `(i,j)`. -/
def AddsLink (M M' : Mat) (i j : Nat) : Prop :=
  M'.I = M.I ∧ M'.J = M.J ∧ ∀ a b, Link M' a b ↔ (Link M a b ∨ (a = i ∧ b = j))

/-- `M'` is reached from `M` by adding links one by one, each allowed by `Ok` at that moment. -/
inductive Adds (Ok : Mat → Nat → Nat → Prop) (M : Mat) : Mat → Prop where
  | refl : Adds Ok M M
  | step {M' M'' : Mat} {i j : Nat} : Adds Ok M M' → Ok M' i j → AddsLink M' M'' i j → Adds Ok M M''

/-- Rule of `symmetr1`: a link of `A` or `B`, not yet present, whose row and column are both free or
which touches a present link horizontally or vertically. -/
def Ok1 (A B : Mat) (M : Mat) (i j : Nat) : Prop :=
  (Link A i j ∨ Link B i j) ∧ ¬ Link M i j ∧
    ((¬ RowAligned M i ∧ ¬ ColAligned M j) ∨ HorizNeigh M i j ∨ VertNeigh M i j)

/-- Rule of `symmetr2`: as `Ok1`, but a touching link is refused if it has both a horizontal and a
vertical neighbour. -/
def Ok2 (A B : Mat) (M : Mat) (i j : Nat) : Prop :=
  (Link A i j ∨ Link B i j) ∧ ¬ Link M i j ∧
    ((¬ RowAligned M i ∧ ¬ ColAligned M j) ∨
      ((HorizNeigh M i j ∨ VertNeigh M i j) ∧ ¬ (HorizNeigh M i j ∧ VertNeigh M i j)))

/-- Rule of the growing phase of `growDiagFinal`. -/
def OkGrow (A B : Mat) (M : Mat) (i j : Nat) : Prop :=
  (Link A i j ∨ Link B i j) ∧ (¬ RowAligned M i ∨ ¬ ColAligned M j) ∧ Neigh8 M i j

/-- Rule of a final pass over the links of `S`. -/
def OkFinal (S : Mat) (M : Mat) (i j : Nat) : Prop :=
  Link S i j ∧ (¬ RowAligned M i ∨ ¬ ColAligned M j)

/-! ### Connection of the boolean tests with the specification -/

theorem iAligned_spec (A : Mat) (i : Nat) (hi : i < A.I) :
    iAligned A.J A.m i = true ↔ RowAligned A i := by
  rw [iAligned_iff]; simp [RowAligned, Link, hi]

theorem jAligned_spec (A : Mat) (j : Nat) (hj : j < A.J) :
    jAligned A.I A.m j = true ↔ ColAligned A j := by
  rw [jAligned_iff]; simp [ColAligned, Link, hj]

theorem vert_spec (A : Mat) (i j : Nat) (hi : i < A.I) (hj : j < A.J) :
    ijHasVertNeighbours A.I A.m i j = true ↔ VertNeigh A i j := by
  unfold ijHasVertNeighbours VertNeigh Link
  constructor
  · intro h
    split at h
    · rename_i hc; exact ⟨i - 1, by omega, by omega, hj, hc.2⟩
    · split at h
      · rename_i hc; exact ⟨i + 1, by omega, by omega, hj, hc.2⟩
      · cases h
  · rintro ⟨i', h1 | h1, h2, _, h3⟩
    · subst h1; simp [h3]
    · subst h1; rw [if_pos (c := i < A.I - 1 ∧ _) ⟨by omega, h3⟩]; split <;> rfl

theorem horiz_spec (A : Mat) (i j : Nat) (hi : i < A.I) (hj : j < A.J) :
    ijHasHorizNeighbours A.J A.m i j = true ↔ HorizNeigh A i j := by
  unfold ijHasHorizNeighbours HorizNeigh Link
  constructor
  · intro h
    split at h
    · rename_i hc; exact ⟨j - 1, by omega, hi, by omega, hc.2⟩
    · split at h
      · rename_i hc; exact ⟨j + 1, by omega, hi, by omega, hc.2⟩
      · cases h
  · rintro ⟨j', h1 | h1, h2, _, h3⟩
    · subst h1; simp [h3]
    · subst h1; rw [if_pos (c := j < A.J - 1 ∧ _) ⟨by omega, h3⟩]; split <;> rfl

theorem neigh_spec (I J : Nat) (m : Cells) (i j : Nat) :
    ijInNeighbourhood I J m i j = (ijHasHorizNeighbours J m i j || ijHasVertNeighbours I m i j) := by
  unfold ijInNeighbourhood ijHasHorizNeighbours ijHasVertNeighbours
  split <;> split <;> (try split) <;> (try split) <;> simp_all

/-- Transfer a growth of cells to the specification. -/
theorem grow_adds {I J : Nat} {Adm : Cells → Nat → Nat → Prop} {Ok : Mat → Nat → Nat → Prop}
    (hp : Proper I J Adm) (hok : ∀ m i j, Adm m i j → Ok ⟨I, J, m⟩ i j) {m m' : Cells}
    (h : Grow Adm m m') : Adds Ok ⟨I, J, m⟩ ⟨I, J, m'⟩ := by
  induction h with
  | refl => exact .refl
  | @step m' i j _ ha ih =>
    refine ih.step (hok _ _ _ ha) ⟨rfl, rfl, fun a b => ?_⟩
    obtain ⟨h1, h2, h3⟩ := hp _ _ _ ha
    simp only [Link, upd]
    by_cases hc : a = i ∧ b = j
    · obtain ⟨rfl, rfl⟩ := hc; simp [h1, h2]
    · simp [hc]

theorem Adds.mem {Ok : Mat → Nat → Nat → Prop} {P : Nat → Nat → Prop} (hok : ∀ M i j, Ok M i j → P i j)
    {M M' : Mat} (h : Adds Ok M M') (i j : Nat) (hl : Link M' i j) : Link M i j ∨ P i j := by
  induction h with
  | refl => exact Or.inl hl
  | step _ h1 h2 ih =>
    rcases (h2.2.2 i j).1 hl with h | ⟨rfl, rfl⟩
    · exact ih h
    · exact Or.inr (hok _ _ _ h1)

theorem Adds.keeps {Ok : Mat → Nat → Nat → Prop} {M M' : Mat} (h : Adds Ok M M') (i j : Nat)
    (hl : Link M i j) : Link M' i j := by
  induction h with
  | refl => exact hl
  | step _ h1 h2 ih => exact (h2.2.2 i j).2 (Or.inl ih)

theorem Adds.dims {Ok : Mat → Nat → Nat → Prop} {M M' : Mat} (h : Adds Ok M M') :
    M'.I = M.I ∧ M'.J = M.J := by
  induction h with
  | refl => exact ⟨rfl, rfl⟩
  | step _ h1 h2 ih => exact ⟨h2.1.trans ih.1, h2.2.1.trans ih.2⟩

/-! ## C12 – algebra -/

/-- **C12.** `&=`, `|=`, `^=` on equal sizes. -/
theorem C12_and (A B : Mat) (hI : A.I = B.I) (hJ : A.J = B.J) :
    (andAssign A B).I = A.I ∧ (andAssign A B).J = A.J ∧
      ∀ i j, Link (andAssign A B) i j ↔ (Link A i j ∧ Link B i j) := by
  refine ⟨by simp [andAssign, hI, hJ, mapCells], by simp [andAssign, hI, hJ, mapCells], fun i j => ?_⟩
  simp only [Link, andAssign, mapCells, hI, hJ, and_self, if_true]
  by_cases h : i < B.I ∧ j < B.J
  · simp only [h, and_self, if_true, true_and]
    by_cases h1 : A.m i j = 0 <;> by_cases h2 : B.m i j = 0 <;> simp [h1, h2]
  · constructor
    · rintro ⟨h1, h2, _⟩; exact absurd ⟨h1, h2⟩ h
    · rintro ⟨⟨h1, h2, _⟩, _⟩; exact absurd ⟨h1, h2⟩ h

theorem C12_or (A B : Mat) (hI : A.I = B.I) (hJ : A.J = B.J) :
    (orAssign A B).I = A.I ∧ (orAssign A B).J = A.J ∧
      ∀ i j, Link (orAssign A B) i j ↔ (Link A i j ∨ Link B i j) := by
  refine ⟨by simp [orAssign, hI, hJ, mapCells], by simp [orAssign, hI, hJ, mapCells], fun i j => ?_⟩
  simp only [Link, orAssign, mapCells, hI, hJ, and_self, if_true]
  by_cases h : i < B.I ∧ j < B.J
  · simp only [h, and_self, if_true, true_and]
    by_cases h1 : A.m i j = 0 <;> by_cases h2 : B.m i j = 0 <;> simp [h1, h2]
  · constructor
    · rintro ⟨h1, h2, _⟩; exact absurd ⟨h1, h2⟩ h
    · rintro (⟨h1, h2, _⟩ | ⟨h1, h2, _⟩) <;> exact absurd ⟨h1, h2⟩ h

theorem C12_xor (A B : Mat) (hI : A.I = B.I) (hJ : A.J = B.J) :
    (xorAssign A B).I = A.I ∧ (xorAssign A B).J = A.J ∧
      ∀ i j, Link (xorAssign A B) i j ↔ ((Link A i j ∧ ¬ Link B i j) ∨ (¬ Link A i j ∧ Link B i j)) := by
  refine ⟨by simp [xorAssign, hI, hJ, mapCells], by simp [xorAssign, hI, hJ, mapCells], fun i j => ?_⟩
  simp only [Link, xorAssign, mapCells, hI, hJ, and_self, if_true]
  by_cases h : i < B.I ∧ j < B.J
  · simp only [h, and_self, if_true, true_and]
    by_cases h1 : A.m i j = 0 <;> by_cases h2 : B.m i j = 0 <;> simp [h1, h2]
  · constructor
    · rintro ⟨h1, h2, _⟩; exact absurd ⟨h1, h2⟩ h
    · rintro (⟨⟨h1, h2, _⟩, _⟩ | ⟨_, h1, h2, _⟩) <;> exact absurd ⟨h1, h2⟩ h

/-- On different sizes the operators (and the symmetrisations) do nothing. -/
theorem C12_size_mismatch (A B : Mat) (h : A.I ≠ B.I ∨ A.J ≠ B.J) (fuel : Nat) :
    andAssign A B = A ∧ orAssign A B = A ∧ xorAssign A B = A ∧ addAssign A B = A ∧ subAssign A B = A ∧
      symmetr1 fuel A B = some A ∧ symmetr2 fuel A B = some A ∧ growDiagFinal fuel A B = some A := by
  have h' : ¬ (A.I = B.I ∧ A.J = B.J) := by omega
  simp [andAssign, orAssign, xorAssign, addAssign, subAssign, symmetr1, symmetr2, growDiagFinal, h', h]

/-- `flip` complements, and two flips give back the same links. -/
theorem C12_flip (A : Mat) : (flip A).I = A.I ∧ (flip A).J = A.J ∧
    ∀ i j, i < A.I → j < A.J → (Link (flip A) i j ↔ ¬ Link A i j) := by
  refine ⟨rfl, rfl, fun i j hi hj => ?_⟩
  simp only [Link, flip, mapCells, hi, hj, and_self, if_true, true_and]
  by_cases h : A.m i j = 0 <;> simp [h]

theorem C12_transpose (A : Mat) : (transpose A).I = A.J ∧ (transpose A).J = A.I ∧
    ∀ i j, i < A.I → j < A.J → (transpose A).m j i = A.m i j := by
  refine ⟨rfl, rfl, fun i j hi hj => ?_⟩
  simp [transpose, assign, mapCells, init, hi, hj]

/-- Transposing twice gives an equal matrix (as the class's own `operator==` sees it). -/
theorem C12_transpose_twice (A : Mat) : eqMat (transpose (transpose A)) A = true := by
  rw [eqMat_iff]
  refine ⟨rfl, rfl, fun i j hi hj => ?_⟩
  have h1 : i < A.I := hi
  have h2 : j < A.J := hj
  rw [(C12_transpose (transpose A)).2.2 j i h2 h1, (C12_transpose A).2.2 i j h1 h2]

/-- `reset()` leaves no link, `set()` makes every cell a link, `setValue(i,j,v)` writes exactly that cell, `operator+=` adds
cell-wise; none changes the dimensions. -/
theorem C12_cells (A B : Mat) (v : Nat) :
    ((reset A).I = A.I ∧ (reset A).J = A.J ∧ ∀ i j, ¬ Link (reset A) i j) ∧
    ((setAll A).I = A.I ∧ (setAll A).J = A.J ∧ ∀ i j, i < A.I → j < A.J → Link (setAll A) i j) ∧
    (∀ i j, (setValue A i j v).I = A.I ∧ (setValue A i j v).J = A.J ∧ ∀ a b, a < A.I → b < A.J →
      (setValue A i j v).m a b = if a = i ∧ b = j then v else A.m a b) ∧
    (A.I = B.I → A.J = B.J → (addAssign A B).I = A.I ∧ (addAssign A B).J = A.J ∧
      ∀ i j, i < A.I → j < A.J → (addAssign A B).m i j = A.m i j + B.m i j) := by
  refine ⟨⟨rfl, rfl, fun i j h => ?_⟩, ⟨rfl, rfl, fun i j hi hj => ?_⟩, fun i j => ?_, fun hI hJ => ?_⟩
  · obtain ⟨h1, h2, h3⟩ := h
    simp only [reset, mapCells] at h1 h2 h3
    simp [h1, h2] at h3
  · exact ⟨hi, hj, by simp [setAll, mapCells, hi, hj]⟩
  · unfold setValue
    split
    · exact ⟨rfl, rfl, fun a b _ _ => rfl⟩
    · rename_i hn
      refine ⟨rfl, rfl, fun a b ha hb => ?_⟩
      rw [if_neg]; rintro ⟨rfl, rfl⟩; exact hn ⟨ha, hb⟩
  · unfold addAssign
    rw [if_pos ⟨hI, hJ⟩]
    exact ⟨rfl, rfl, fun i j hi hj => by simp [mapCells, hi, hj]⟩

/-- `operator==` is equality of dimensions and of all cells. -/
theorem C12_eq (A B : Mat) : eqMat A B = true ↔
    A.I = B.I ∧ A.J = B.J ∧ ∀ i j, i < A.I → j < A.J → A.m i j = B.m i j := eqMat_iff A B

/-- `set(i,j)` makes `(i,j)` a link if it is inside and changes nothing else; outside it does nothing. -/
theorem C12_set (A : Mat) (i j : Nat) :
    (i < A.I → j < A.J → ∀ a b, Link (set A i j) a b ↔ (Link A a b ∨ (a = i ∧ b = j))) ∧
    (¬ (i < A.I ∧ j < A.J) → set A i j = A) := by
  constructor
  · intro hi hj a b
    simp only [set, hi, hj, and_self, if_true, Link, upd]
    by_cases hc : a = i ∧ b = j
    · obtain ⟨rfl, rfl⟩ := hc; simp [hi, hj]
    · simp [hc]
  · intro h; simp [set, h]

example : ∃ A B : Mat, A.I = B.I ∧ A.J = B.J ∧ Link A 1 2 ∧ ¬ Link B 1 2 :=
  ⟨set (init 3 4) 1 2, init 3 4, rfl, rfl, by simp [set, init, Link, upd], by simp [init, Link]⟩

/-! ## C38 – copies -/

/-- **C38.** Assigning a *different* object makes an equal matrix. -/
theorem C38_assign_partial (B : Mat) : eqMat (assign B) B = true := by
  rw [eqMat_iff]
  refine ⟨rfl, rfl, fun i j hi hj => ?_⟩
  have h1 : i < B.I := hi
  have h2 : j < B.J := hj
  simp [assign, mapCells, init, h1, h2]

/-- Full statement: assignment (including self-assignment) leaves the target equal to the source. -/
def C38_full : Prop := ∀ A : Mat, eqMat (assign A) A = true ∧ eqMat (assignSelf A) A = true

/-- **C38 is false of the code**: `a=a` erases every link of `a`. -/
theorem C38_counterexample : ¬ C38_full := by
  intro h
  have := (h (set (init 1 1) 0 0)).2
  revert this; decide

/-- Self-assignment always yields an all-zero matrix. -/
theorem C38_self_assign_erases (A : Mat) (i j : Nat) : ¬ Link (assignSelf A) i j := by
  rintro ⟨_, _, h⟩
  apply h
  simp only [assignSelf, mapCells, init]
  exact ite_self 0

/-! ## C09, C10 – symmetrisation -/

private theorem inter_dims (A B : Mat) : (andAssign A B).I = A.I ∧ (andAssign A B).J = A.J := by
  unfold andAssign; split <;> exact ⟨rfl, rfl⟩

/-- Cell-level rule of `symmetr1`. -/
private def Adm1 (I J : Nat) (w aux : Cells) (m : Cells) (i j : Nat) : Prop :=
  i < I ∧ j < J ∧ (w i j ≠ 0 ∨ aux i j ≠ 0) ∧ m i j = 0 ∧
    ((jAligned I m j = false ∧ iAligned J m i = false) ∨ ijInNeighbourhood I J m i j = true)

private def Adm2 (I J : Nat) (w aux : Cells) (m : Cells) (i j : Nat) : Prop :=
  i < I ∧ j < J ∧ (w i j ≠ 0 ∨ aux i j ≠ 0) ∧ m i j = 0 ∧
    ((jAligned I m j = false ∧ iAligned J m i = false) ∨
      (ijInNeighbourhood I J m i j = true ∧
        ¬ (ijHasHorizNeighbours J m i j = true ∧ ijHasVertNeighbours I m i j = true)))

private theorem proper1 (I J : Nat) (w aux : Cells) : Proper I J (Adm1 I J w aux) :=
  fun _ _ _ h => ⟨h.1, h.2.1, h.2.2.2.1⟩
private theorem proper2 (I J : Nat) (w aux : Cells) : Proper I J (Adm2 I J w aux) :=
  fun _ _ _ h => ⟨h.1, h.2.1, h.2.2.2.1⟩

private theorem sym1Step_pos {I J : Nat} {w aux m : Cells} {c : Nat × Nat} (h : Adm1 I J w aux m c.1 c.2) :
    sym1Step I J w aux m c = upd m c.1 c.2 1 := by
  obtain ⟨_, _, h1, h2, h3⟩ := h
  unfold sym1Step
  rw [if_pos ⟨h1, h2⟩]
  rcases h3 with ⟨h3, h4⟩ | h3
  · simp [h3, h4]
  · rw [h3]; split <;> rfl

private theorem sym1Step_neg {I J : Nat} {w aux m : Cells} {c : Nat × Nat} (hc : c.1 < I ∧ c.2 < J)
    (h : ¬ Adm1 I J w aux m c.1 c.2) : sym1Step I J w aux m c = m := by
  unfold sym1Step
  split
  · rename_i h1
    split
    · rename_i h2; exact absurd ⟨hc.1, hc.2, h1.1, h1.2, Or.inl (by simpa using h2)⟩ h
    · split
      · rename_i h2; exact absurd ⟨hc.1, hc.2, h1.1, h1.2, Or.inr h2⟩ h
      · rfl
  · rfl

private theorem sym2Step_pos {I J : Nat} {w aux m : Cells} {c : Nat × Nat} (h : Adm2 I J w aux m c.1 c.2) :
    sym2Step I J w aux m c = upd m c.1 c.2 1 := by
  obtain ⟨_, _, h1, h2, h3⟩ := h
  unfold sym2Step
  rw [if_pos ⟨h1, h2⟩]
  rcases h3 with ⟨h3, h4⟩ | ⟨h3, h4⟩
  · simp [h3, h4]
  · rw [h3]; split
    · rfl
    · rw [if_pos rfl, if_pos (by rw [Bool.not_eq_true', Bool.eq_false_iff, ne_eq, Bool.and_eq_true]; exact h4)]

private theorem sym2Step_neg {I J : Nat} {w aux m : Cells} {c : Nat × Nat} (hc : c.1 < I ∧ c.2 < J)
    (h : ¬ Adm2 I J w aux m c.1 c.2) : sym2Step I J w aux m c = m := by
  unfold sym2Step
  split
  · rename_i h1
    split
    · rename_i h2; exact absurd ⟨hc.1, hc.2, h1.1, h1.2, Or.inl (by simpa using h2)⟩ h
    · split
      · rename_i h2
        split
        · rename_i h3
          exact absurd ⟨hc.1, hc.2, h1.1, h1.2, Or.inr ⟨h2, by
            rw [Bool.not_eq_true', Bool.eq_false_iff, ne_eq, Bool.and_eq_true] at h3; exact h3⟩⟩ h
        · rfl
      · rfl
  · rfl

private theorem adm1_iff (A B : Mat) (hI : A.I = B.I) (hJ : A.J = B.J) (m : Cells) (i j : Nat) :
    Adm1 A.I A.J B.m A.m m i j ↔ Ok1 A B ⟨A.I, A.J, m⟩ i j := by
  unfold Adm1 Ok1
  by_cases h : i < A.I ∧ j < A.J
  · have e1 := iAligned_spec ⟨A.I, A.J, m⟩ i h.1
    have e2 := jAligned_spec ⟨A.I, A.J, m⟩ j h.2
    have e3 := vert_spec ⟨A.I, A.J, m⟩ i j h.1 h.2
    have e4 := horiz_spec ⟨A.I, A.J, m⟩ i j h.1 h.2
    simp only at e1 e2 e3 e4
    rw [neigh_spec, ← e1, ← e2, ← e3, ← e4]
    simp only [Link, ← hI, ← hJ, h.1, h.2, true_and, Bool.or_eq_true, Bool.not_eq_true, ne_eq,
      Decidable.not_not]
    constructor
    · rintro ⟨h1, h2, h3⟩
      exact ⟨h1.symm, h2, h3.imp (fun x => ⟨x.2, x.1⟩) id⟩
    · rintro ⟨h1, h2, h3⟩
      exact ⟨h1.symm, h2, h3.imp (fun x => ⟨x.2, x.1⟩) id⟩
  · constructor
    · rintro ⟨h1, h2, _⟩; exact absurd ⟨h1, h2⟩ h
    · rintro ⟨h1, _⟩
      rcases h1 with h1 | h1
      · exact absurd ⟨h1.1, h1.2.1⟩ h
      · exact absurd ⟨hI ▸ h1.1, hJ ▸ h1.2.1⟩ h

private theorem adm2_iff (A B : Mat) (hI : A.I = B.I) (hJ : A.J = B.J) (m : Cells) (i j : Nat) :
    Adm2 A.I A.J B.m A.m m i j ↔ Ok2 A B ⟨A.I, A.J, m⟩ i j := by
  unfold Adm2 Ok2
  by_cases h : i < A.I ∧ j < A.J
  · have e1 := iAligned_spec ⟨A.I, A.J, m⟩ i h.1
    have e2 := jAligned_spec ⟨A.I, A.J, m⟩ j h.2
    have e3 := vert_spec ⟨A.I, A.J, m⟩ i j h.1 h.2
    have e4 := horiz_spec ⟨A.I, A.J, m⟩ i j h.1 h.2
    simp only at e1 e2 e3 e4
    rw [neigh_spec, ← e1, ← e2, ← e3, ← e4]
    simp only [Link, ← hI, ← hJ, h.1, h.2, true_and, Bool.or_eq_true, Bool.not_eq_true, ne_eq,
      Decidable.not_not]
    constructor
    · rintro ⟨h1, h2, h3⟩
      exact ⟨h1.symm, h2, h3.imp (fun x => ⟨x.2, x.1⟩) id⟩
    · rintro ⟨h1, h2, h3⟩
      exact ⟨h1.symm, h2, h3.imp (fun x => ⟨x.2, x.1⟩) id⟩
  · constructor
    · rintro ⟨h1, h2, _⟩; exact absurd ⟨h1, h2⟩ h
    · rintro ⟨h1, _⟩
      rcases h1 with h1 | h1
      · exact absurd ⟨h1.1, h1.2.1⟩ h
      · exact absurd ⟨hI ▸ h1.1, hJ ▸ h1.2.1⟩ h

/-- Generic statement of C09/C10. -/
private theorem sym_generic (A B : Mat)
    (stp : Cells → Nat × Nat → Cells) (Adm : Cells → Nat → Nat → Prop) (Ok : Mat → Nat → Nat → Prop)
    (hp : Proper A.I A.J Adm)
    (hpos : ∀ m c, Adm m c.1 c.2 → stp m c = upd m c.1 c.2 1)
    (hneg : ∀ m (c : Nat × Nat), (c.1 < A.I ∧ c.2 < A.J) → ¬ Adm m c.1 c.2 → stp m c = m)
    (hiff : ∀ m i j, Adm m i j ↔ Ok ⟨A.I, A.J, m⟩ i j) :
    ∃ n R, (∀ fuel, n ≤ fuel → symWhile (fun m => (cells A.I A.J).foldl stp m) fuel empty
        (andAssign A B) = some R) ∧
      Adds Ok (andAssign A B) R ∧ ∀ i j, ¬ Ok R i j := by
  have hstep : ∀ c ∈ cells A.I A.J, ∀ m, Grow Adm m (stp m c) := by
    intro c hc m
    by_cases h : Adm m c.1 c.2
    · rw [hpos m c h]; exact Grow.one h
    · rw [hneg m c (mem_cells.1 hc) h]; exact .refl
  obtain ⟨n, R, h1, h2, h3⟩ := symWhile_start hp (fun m => (cells A.I A.J).foldl stp m)
    (fun m => foldl_grow _ _ hstep m) (andAssign A B).m
  have hd := inter_dims A B
  have hmat : andAssign A B = ⟨A.I, A.J, (andAssign A B).m⟩ := by
    obtain ⟨e1, e2⟩ := hd
    cases hM : andAssign A B with
    | mk I J m => rw [hM] at e1 e2; simp at e1 e2; simp [e1, e2]
  refine ⟨n, ⟨A.I, A.J, R⟩, fun fuel hf => ?_, ?_, fun i j hok => ?_⟩
  · rw [hmat]; exact h1 fuel hf
  · rw [hmat]; exact grow_adds hp (fun m i j h => (hiff m i j).1 h) h2
  · have ha := (hiff R i j).2 hok
    have hij := hp _ _ _ ha
    have := foldl_fix (fun x hx m => (hstep x hx m).le hp) h3 (i, j) (mem_cells.2 ⟨hij.1, hij.2.1⟩)
    rw [hpos R (i, j) ha] at this
    have := congrFun (congrFun this i) j
    simp [upd, hij.2.2] at this

/-- **C09.** `A.symmetr1(B)` halts, starts from the intersection, only adds admissible links of the union
and stops only when none is left; hence it lies between intersection and union. -/
theorem C09_symmetr1 (A B : Mat) (hI : A.I = B.I) (hJ : A.J = B.J) :
    ∃ n R, (∀ fuel, n ≤ fuel → symmetr1 fuel A B = some R) ∧
      (R.I = A.I ∧ R.J = A.J) ∧
      Adds (Ok1 A B) (andAssign A B) R ∧ (∀ i j, ¬ Ok1 A B R i j) ∧
      (∀ i j, Link A i j ∧ Link B i j → Link R i j) ∧
      (∀ i j, Link R i j → Link A i j ∨ Link B i j) := by
  obtain ⟨n, R, h1, h2, h3⟩ := sym_generic A B (sym1Step A.I A.J B.m A.m) _ (Ok1 A B)
    (proper1 A.I A.J B.m A.m) (fun m c h => sym1Step_pos h) (fun m c hc h => sym1Step_neg hc h)
    (adm1_iff A B hI hJ)
  have hd := h2.dims
  refine ⟨n, R, fun fuel hf => ?_, ⟨hd.1.trans (inter_dims A B).1, hd.2.trans (inter_dims A B).2⟩, h2, h3,
    fun i j h => h2.keeps i j ((C12_and A B hI hJ).2.2 i j |>.2 h), fun i j h => ?_⟩
  · unfold symmetr1; rw [if_pos ⟨hI, hJ⟩]; exact h1 fuel hf
  · rcases h2.mem (P := fun i j => Link A i j ∨ Link B i j) (fun M i j h => h.1) i j h with h | h
    · exact Or.inl ((C12_and A B hI hJ).2.2 i j |>.1 h).1
    · exact h

/-- **C10.** Same for `symmetr2`. -/
theorem C10_symmetr2 (A B : Mat) (hI : A.I = B.I) (hJ : A.J = B.J) :
    ∃ n R, (∀ fuel, n ≤ fuel → symmetr2 fuel A B = some R) ∧
      (R.I = A.I ∧ R.J = A.J) ∧
      Adds (Ok2 A B) (andAssign A B) R ∧ (∀ i j, ¬ Ok2 A B R i j) ∧
      (∀ i j, Link A i j ∧ Link B i j → Link R i j) ∧
      (∀ i j, Link R i j → Link A i j ∨ Link B i j) := by
  obtain ⟨n, R, h1, h2, h3⟩ := sym_generic A B (sym2Step A.I A.J B.m A.m) _ (Ok2 A B)
    (proper2 A.I A.J B.m A.m) (fun m c h => sym2Step_pos h) (fun m c hc h => sym2Step_neg hc h)
    (adm2_iff A B hI hJ)
  have hd := h2.dims
  refine ⟨n, R, fun fuel hf => ?_, ⟨hd.1.trans (inter_dims A B).1, hd.2.trans (inter_dims A B).2⟩, h2, h3,
    fun i j h => h2.keeps i j ((C12_and A B hI hJ).2.2 i j |>.2 h), fun i j h => ?_⟩
  · unfold symmetr2; rw [if_pos ⟨hI, hJ⟩]; exact h1 fuel hf
  · rcases h2.mem (P := fun i j => Link A i j ∨ Link B i j) (fun M i j h => h.1) i j h with h | h
    · exact Or.inl ((C12_and A B hI hJ).2.2 i j |>.1 h).1
    · exact h

-- a run on 2x2 matrices: intersection {(0,0)}, union adds the neighbour (1,0) and then (1,1)
example : (symmetr1 5 (set (set (init 2 2) 0 0) 1 0) (set (set (init 2 2) 0 0) 1 1)).map
    (fun R => (R.m 0 0, R.m 0 1, R.m 1 0, R.m 1 1)) = some (1, 0, 1, 1) := by decide

/-! ## C11 – grow-diag-final -/

theorem mem_adjacent (I J i j a b : Nat) : (a, b) ∈ obtainAdjacentCells I J i j ↔
    (a < I ∧ b < J ∧ (a, b) ≠ (i, j) ∧ a ≤ i + 1 ∧ i ≤ a + 1 ∧ b ≤ j + 1 ∧ j ≤ b + 1) := by
  unfold obtainAdjacentCells
  simp only [List.mem_flatMap, List.mem_filterMap, List.mem_cons, List.not_mem_nil, or_false]
  constructor
  · rintro ⟨di, hdi, dj, hdj, h⟩
    split at h
    · rename_i h1
      split at h
      · rename_i h2
        simp only [Option.some.injEq, Prod.mk.injEq] at h
        obtain ⟨rfl, rfl⟩ := h
        refine ⟨by omega, by omega, ?_, by omega, by omega, by omega, by omega⟩
        intro he
        simp only [Prod.mk.injEq] at he
        omega
      · cases h
    · cases h
  · rintro ⟨h1, h2, h3, h4, h5, h6, h7⟩
    have hne : a ≠ i ∨ b ≠ j := by
      apply Classical.byContradiction; intro hc; apply h3
      have : a = i ∧ b = j := by omega
      rw [this.1, this.2]
    refine ⟨(a : Int) - i, by omega, (b : Int) - j, by omega, ?_⟩
    rw [if_pos (by omega), if_pos (by omega)]
    simp only [Option.some.injEq, Prod.mk.injEq]
    omega

private def AdmG (A B : Mat) (m : Cells) (i j : Nat) : Prop := OkGrow A B ⟨A.I, A.J, m⟩ i j

private theorem free_zero {I J : Nat} {m : Cells} {i j : Nat} (hi : i < I) (hj : j < J)
    (h : ¬ RowAligned ⟨I, J, m⟩ i ∨ ¬ ColAligned ⟨I, J, m⟩ j) : m i j = 0 := by
  apply Classical.byContradiction; intro h0
  rcases h with h | h
  · exact h ⟨j, hi, hj, h0⟩
  · exact h ⟨i, hi, hj, h0⟩

private theorem properG (A B : Mat) (hI : A.I = B.I) (hJ : A.J = B.J) : Proper A.I A.J (AdmG A B) := by
  rintro m i j ⟨h1, h2, _⟩
  have : i < A.I ∧ j < A.J := by
    rcases h1 with h1 | h1
    · exact ⟨h1.1, h1.2.1⟩
    · exact ⟨hI ▸ h1.1, hJ ▸ h1.2.1⟩
  exact ⟨this.1, this.2, free_zero this.1 this.2 h2⟩

private theorem free_iff (I J : Nat) (m : Cells) (i j : Nat) (hi : i < I) (hj : j < J) :
    (!iAligned J m i || !jAligned I m j) = true ↔
      (¬ RowAligned ⟨I, J, m⟩ i ∨ ¬ ColAligned ⟨I, J, m⟩ j) := by
  have e1 := iAligned_spec ⟨I, J, m⟩ i hi
  have e2 := jAligned_spec ⟨I, J, m⟩ j hj
  simp only at e1 e2
  rw [← e1, ← e2]; simp

private theorem join_iff (A B : Mat) (hI : A.I = B.I) (hJ : A.J = B.J) (i j : Nat) (hi : i < A.I) (hj : j < A.J) :
    (orAssign A B).m i j ≠ 0 ↔ (Link A i j ∨ Link B i j) := by
  have := (C12_or A B hI hJ).2.2 i j
  rw [← this, Link]
  rw [(C12_or A B hI hJ).1, (C12_or A B hI hJ).2.1]
  simp [hi, hj]

/-- Inner loop: as long as the centre is a link, all additions are admissible. -/
private theorem neigh_grow (A B : Mat) (hI : A.I = B.I) (hJ : A.J = B.J) (c : Nat × Nat)
    (hc : c.1 < A.I ∧ c.2 < A.J) (l : List (Nat × Nat)) (hl : ∀ n ∈ l, n ∈ obtainAdjacentCells A.I A.J c.1 c.2)
    (m : Cells) (hm : m c.1 c.2 ≠ 0) :
    Grow (AdmG A B) m (l.foldl (gdfNeighStep A.I A.J (orAssign A B).m) m) ∧
    (l.foldl (gdfNeighStep A.I A.J (orAssign A B).m) m = m →
      ∀ n ∈ l, gdfNeighStep A.I A.J (orAssign A B).m m n = m) := by
  induction l generalizing m with
  | nil => exact ⟨.refl, fun _ n hn => by cases hn⟩
  | cons n l ih =>
    have hn := hl n (by simp)
    have hn' := (mem_adjacent A.I A.J c.1 c.2 n.1 n.2).1 hn
    have hstep : Grow (AdmG A B) m (gdfNeighStep A.I A.J (orAssign A B).m m n) := by
      unfold gdfNeighStep
      split
      · rename_i hcond
        rw [Bool.and_eq_true] at hcond
        refine Grow.one ⟨(join_iff A B hI hJ _ _ hn'.1 hn'.2.1).1 (by simpa using hcond.2),
          (free_iff A.I A.J m _ _ hn'.1 hn'.2.1).1 hcond.1, c.1, c.2, ?_, by omega, by omega, by omega,
          by omega, hc.1, hc.2, hm⟩
        intro he; exact hn'.2.2.1 he.symm
      · exact .refl
    have hle := hstep.le (properG A B hI hJ)
    have hm' : (gdfNeighStep A.I A.J (orAssign A B).m m n) c.1 c.2 ≠ 0 := by
      rw [hle _ _ hm]; exact hm
    obtain ⟨i1, i2⟩ := ih (fun x hx => hl x (by simp [hx])) _ hm'
    rw [List.foldl_cons]
    refine ⟨hstep.trans i1, fun he => ?_⟩
    have hle2 := i1.le (properG A B hI hJ)
    rw [he] at hle2
    have e : gdfNeighStep A.I A.J (orAssign A B).m m n = m := hle2.antisymm hle
    rw [e] at he i2
    intro x hx
    rcases List.mem_cons.1 hx with rfl | hx
    · exact e
    · exact i2 he x hx

/-- Final passes. -/
private theorem final_grow (I J : Nat) (S : Mat) (hI : S.I = I) (hJ : S.J = J) (l : List (Nat × Nat))
    (hl : ∀ c ∈ l, c.1 < I ∧ c.2 < J) (m : Cells) :
    Grow (fun m i j => OkFinal S ⟨I, J, m⟩ i j) m (l.foldl (finalStep I J S.m) m) ∧
    ∀ c ∈ l, S.m c.1 c.2 ≠ 0 → RowAligned ⟨I, J, l.foldl (finalStep I J S.m) m⟩ c.1 ∧
      ColAligned ⟨I, J, l.foldl (finalStep I J S.m) m⟩ c.2 := by
  have hp : Proper I J (fun m i j => OkFinal S ⟨I, J, m⟩ i j) := by
    rintro m i j ⟨h1, h2⟩
    exact ⟨hI ▸ h1.1, hJ ▸ h1.2.1, free_zero (hI ▸ h1.1) (hJ ▸ h1.2.1) h2⟩
  have hstep : ∀ c ∈ l, ∀ m, Grow (fun m i j => OkFinal S ⟨I, J, m⟩ i j) m (finalStep I J S.m m c) := by
    intro c hc m
    have hc' := hl c hc
    unfold finalStep
    split
    · rename_i hcond
      rw [Bool.and_eq_true] at hcond
      exact Grow.one ⟨⟨hI.symm ▸ hc'.1, hJ.symm ▸ hc'.2, by simpa using hcond.2⟩,
        (free_iff I J m _ _ hc'.1 hc'.2).1 hcond.1⟩
    · exact .refl
  refine ⟨foldl_grow _ _ hstep m, ?_⟩
  induction l generalizing m with
  | nil => intro c hc; cases hc
  | cons a l ih =>
    intro c hc hS
    rcases List.mem_cons.1 hc with rfl | hc
    · have hc' := hl c (by simp)
      -- after the step, c's row and column are aligned; growth keeps them
      have hal : RowAligned ⟨I, J, finalStep I J S.m m c⟩ c.1 ∧ ColAligned ⟨I, J, finalStep I J S.m m c⟩ c.2 := by
        unfold finalStep
        split
        · exact ⟨⟨c.2, hc'.1, hc'.2, by simp [upd]⟩, ⟨c.1, hc'.1, hc'.2, by simp [upd]⟩⟩
        · rename_i hcond
          have h2 : ¬ (!iAligned J m c.1 || !jAligned I m c.2) = true := by
            intro h; apply hcond; rw [Bool.and_eq_true]; exact ⟨h, by simpa using hS⟩
          rw [free_iff I J m _ _ hc'.1 hc'.2] at h2
          exact ⟨Classical.byContradiction fun h => h2 (Or.inl h),
            Classical.byContradiction fun h => h2 (Or.inr h)⟩
      have hg := foldl_grow _ l (fun x hx => hstep x (List.mem_cons_of_mem _ hx)) (finalStep I J S.m m c)
      have hle := hg.le hp
      rw [List.foldl_cons]
      obtain ⟨⟨j, hj1, hj2, hj3⟩, ⟨i, hi1, hi2, hi3⟩⟩ := hal
      exact ⟨⟨j, hj1, hj2, fun h0 => hj3 ((hle _ _ hj3).symm.trans h0)⟩,
        ⟨i, hi1, hi2, fun h0 => hi3 ((hle _ _ hi3).symm.trans h0)⟩⟩
    · rw [List.foldl_cons]
      exact ih (fun x hx => hl x (List.mem_cons_of_mem _ hx)) _
        (fun x hx => hstep x (List.mem_cons_of_mem _ hx)) c hc hS

/-- **C11.** `A.growDiagFinal(B)` halts. Its result is: the intersection, grown by union links that touch
(8-neighbourhood) a present link and whose row or column is free until there is none left, then
completed by links of `A` and then of `B` whose row or column is free. Hence it contains the
intersection, is contained in the union, and every link of `A` or `B` has its row and its column
aligned. -/
theorem C11_growDiagFinal (A B : Mat) (hI : A.I = B.I) (hJ : A.J = B.J) :
    ∃ n M1 M2 R, (∀ fuel, n ≤ fuel → growDiagFinal fuel A B = some R) ∧
      (R.I = A.I ∧ R.J = A.J) ∧
      Adds (OkGrow A B) (andAssign A B) M1 ∧ (∀ i j, ¬ OkGrow A B M1 i j) ∧
      Adds (OkFinal A) M1 M2 ∧ Adds (OkFinal B) M2 R ∧
      (∀ i j, Link A i j ∧ Link B i j → Link R i j) ∧
      (∀ i j, Link R i j → Link A i j ∨ Link B i j) ∧
      (∀ i j, Link A i j ∨ Link B i j → RowAligned R i ∧ ColAligned R j) := by
  have hp := properG A B hI hJ
  have hstep : ∀ c ∈ cells A.I A.J, ∀ m, Grow (AdmG A B) m (gdfStep A.I A.J (orAssign A B).m m c) := by
    intro c hc m
    unfold gdfStep
    split
    · rename_i h; exact (neigh_grow A B hI hJ c (mem_cells.1 hc) _ (fun _ h => h) m h).1
    · exact .refl
  obtain ⟨n, R, h1, h2, h3⟩ := gdfWhile_loop hp
    (fun m => (cells A.I A.J).foldl (gdfStep A.I A.J (orAssign A B).m) m)
    (fun m => foldl_grow _ _ hstep m) (andAssign A B).m
  have hd := inter_dims A B
  have hmat : andAssign A B = ⟨A.I, A.J, (andAssign A B).m⟩ := by
    obtain ⟨e1, e2⟩ := hd
    cases hM : andAssign A B with
    | mk I J m => rw [hM] at e1 e2; simp at e1 e2; simp [e1, e2]
  have hc : ∀ c ∈ cells A.I A.J, c.1 < A.I ∧ c.2 < A.J := fun c hc => mem_cells.1 hc
  have hpf : ∀ S : Mat, S.I = A.I → S.J = A.J → Proper A.I A.J (fun m i j => OkFinal S ⟨A.I, A.J, m⟩ i j) := by
    rintro S e1 e2 m i j ⟨h1, h2⟩
    exact ⟨e1 ▸ h1.1, e2 ▸ h1.2.1, free_zero (e1 ▸ h1.1) (e2 ▸ h1.2.1) h2⟩
  obtain ⟨f1, f2⟩ := final_grow A.I A.J A rfl rfl (cells A.I A.J) hc R
  obtain ⟨g1, g2⟩ := final_grow A.I A.J B hI.symm hJ.symm (cells A.I A.J) hc
    ((cells A.I A.J).foldl (finalStep A.I A.J A.m) R)
  have a1 : Adds (OkGrow A B) (andAssign A B) ⟨A.I, A.J, R⟩ := by
    rw [hmat]; exact grow_adds hp (fun m i j h => h) h2
  have a2 := grow_adds (hpf A rfl rfl) (fun m i j h => h) f1
  have a3 := grow_adds (hpf B hI.symm hJ.symm) (fun m i j h => h) g1
  refine ⟨n, ⟨A.I, A.J, R⟩, _, _, fun fuel hf => ?_, ?_, a1, ?_, a2, a3, ?_, ?_, ?_⟩
  · unfold growDiagFinal
    rw [if_neg (by omega)]
    simp only
    have := h1 fuel hf
    rw [← hmat] at this
    rw [this]; rfl
  · exact ⟨rfl, rfl⟩
  · -- maximality of the growing phase
    intro i j hok
    have hok' := hok
    obtain ⟨hu, hfree, i', j', hne, q1, q2, q3, q4, hl1, hl2, hl3⟩ := hok
    obtain ⟨pi, pj, p0⟩ := hp R i j hok'
    have hfix := foldl_fix (fun x hx m => (hstep x hx m).le hp) h3 (i', j') (mem_cells.2 ⟨hl1, hl2⟩)
    unfold gdfStep at hfix
    rw [if_pos hl3] at hfix
    have hadj : (i, j) ∈ obtainAdjacentCells A.I A.J i' j' :=
      (mem_adjacent A.I A.J i' j' i j).2 ⟨pi, pj, fun h => hne h.symm, by omega, by omega, by omega, by omega⟩
    have := (neigh_grow A B hI hJ (i', j') ⟨hl1, hl2⟩ _ (fun _ h => h) R hl3).2 hfix (i, j) hadj
    unfold gdfNeighStep at this
    rw [if_pos] at this
    · have := congrFun (congrFun this i) j
      simp [upd, p0] at this
    · rw [Bool.and_eq_true]
      exact ⟨(free_iff A.I A.J R i j pi pj).2 hfree, by simpa using (join_iff A B hI hJ i j pi pj).2 hu⟩
  · intro i j h
    exact a3.keeps _ _ (a2.keeps _ _ (a1.keeps _ _ ((C12_and A B hI hJ).2.2 i j |>.2 h)))
  · intro i j h
    rcases a3.mem (P := fun i j => Link B i j) (fun M i j h => h.1) i j h with h | h
    · rcases a2.mem (P := fun i j => Link A i j) (fun M i j h => h.1) i j h with h | h
      · rcases a1.mem (P := fun i j => Link A i j ∨ Link B i j) (fun M i j h => h.1) i j h with h | h
        · exact Or.inl ((C12_and A B hI hJ).2.2 i j |>.1 h).1
        · exact h
      · exact Or.inl h
    · exact Or.inr h
  · intro i j h
    rcases h with h | h
    · obtain ⟨⟨y, hy⟩, ⟨x, hx⟩⟩ := f2 (i, j) (mem_cells.2 ⟨h.1, h.2.1⟩) h.2.2
      exact ⟨⟨y, a3.keeps _ _ hy⟩, ⟨x, a3.keeps _ _ hx⟩⟩
    · exact g2 (i, j) (mem_cells.2 ⟨hI ▸ h.1, hJ ▸ h.2.1⟩) h.2.2

example : (growDiagFinal 5 (set (set (init 3 3) 0 0) 1 1) (set (set (init 3 3) 0 0) 2 0)).map
    (fun R => (R.m 0 0, R.m 1 1, R.m 2 0)) = some (1, 1, 1) := by decide +kernel

/-! ## C13 – difference -/

/-- Full statement of C13. -/
def C13_full : Prop := ∀ A B : Mat, A.I = B.I → A.J = B.J →
  ∀ i j, Link (subAssign A B) i j ↔ (Link A i j ∧ ¬ Link B i j)

/-- **C13 is false of the code**: a link present in both operands survives `-=`. -/
theorem C13_counterexample : ¬ C13_full := by
  intro h
  have := (h (set (init 1 1) 0 0) (set (init 1 1) 0 0) rfl rfl 0 0)
  simp [Link, subAssign, mapCells, set, init, upd] at this

/-- **C13 (partial).** What the code guarantees: the links of `A` that are not in `B` stay (and, in fact, all
links of `A` stay), and none appears. Missing: removal of the common links. -/
theorem C13_sub_partial (A B : Mat) (i j : Nat) :
    ((Link A i j ∧ ¬ Link B i j) → Link (subAssign A B) i j) ∧ (Link (subAssign A B) i j ↔ Link A i j) := by
  have key : Link (subAssign A B) i j ↔ Link A i j := by
    unfold subAssign
    split
    · simp only [Link, mapCells]
      by_cases h : i < A.I ∧ j < A.J
      · simp only [h, and_self, if_true, true_and]
        by_cases h1 : A.m i j = 0 <;> by_cases h2 : B.m i j = 0 <;> simp [h1, h2]
      · simp [h]
    · rfl
  exact ⟨fun h => key.2 h.1, key⟩

/-! ## C14 – alignment vectors -/

/-- Full statement of C14: round trip and failure exactly on a doubly aligned column. -/
def C14_full : Prop :=
  (∀ (I : Nat) (v : List Nat), (∀ p ∈ v, p ≤ I) →
    ∃ A, putAligVec (init I v.length) v = some A ∧ getAligVec A = some v) ∧
  (∀ A : Mat, getAligVec A = none ↔ ∃ j i i', i ≠ i' ∧ Link A i j ∧ Link A i' j)

/-- **C14 is false of the code**: position 1 is read back as 0 (unaligned). -/
theorem C14_counterexample : ¬ C14_full := by
  intro h
  obtain ⟨A, h1, h2⟩ := h.1 1 [1] (by simp)
  have e : putAligVec (init 1 [1].length) [1] = some ⟨1, 1, upd (fun _ _ => 0) 0 0 1⟩ := rfl
  rw [e] at h1; cases h1
  revert h2; decide

/-- A column with links in rows 0 and 1 is not reported. -/
theorem C14_counterexample_double :
    getAligVec (set (set (init 2 1) 0 0) 1 0) = some [1] := by decide

open Classical in
private theorem putLoop_spec (I : Nat) (ps : List Nat) (hps : ∀ p ∈ ps, p ≤ I) (j0 : Nat) (m : Cells) :
    ∃ m', putLoop I j0 ps m = some m' ∧
      ∀ i j, m' i j = if (∃ k, j = j0 + k ∧ ps[k]? = some (i + 1)) then 1 else m i j := by
  induction ps generalizing j0 m with
  | nil => exact ⟨m, rfl, fun i j => by simp⟩
  | cons p ps ih =>
    have hex : ∀ i j, (∃ k, j = j0 + k ∧ (p :: ps)[k]? = some (i + 1)) ↔
        ((j = j0 ∧ p = i + 1) ∨ ∃ k, j = j0 + 1 + k ∧ ps[k]? = some (i + 1)) := by
      intro i j
      constructor
      · rintro ⟨k, h1, h2⟩
        cases k with
        | zero => left; simpa [h1] using h2
        | succ k => right; exact ⟨k, by omega, by simpa using h2⟩
      · rintro (⟨h1, h2⟩ | ⟨k, h1, h2⟩)
        · exact ⟨0, by omega, by simpa using h2⟩
        · exact ⟨k + 1, by omega, by simpa using h2⟩
    rw [putLoop]
    split
    · rename_i hp
      have hpI := hps p (by simp)
      rw [if_pos (by omega)]
      obtain ⟨m', h1, h2⟩ := ih (fun q hq => hps q (by simp [hq])) (j0 + 1) (upd m (p - 1) j0 1)
      refine ⟨m', h1, fun i j => ?_⟩
      rw [h2]
      by_cases hk : ∃ k, j = j0 + 1 + k ∧ ps[k]? = some (i + 1)
      · rw [if_pos hk, if_pos ((hex i j).2 (Or.inr hk))]
      · rw [if_neg hk]
        unfold upd
        by_cases hc : i = p - 1 ∧ j = j0
        · rw [if_pos hc, if_pos ((hex i j).2 (Or.inl ⟨hc.2, by omega⟩))]
        · rw [if_neg hc, if_neg]
          rw [hex]; rintro (⟨h3, h4⟩ | h3)
          · exact hc ⟨by omega, h3⟩
          · exact hk h3
    · rename_i hp
      obtain ⟨m', h1, h2⟩ := ih (fun q hq => hps q (by simp [hq])) (j0 + 1) m
      refine ⟨m', h1, fun i j => ?_⟩
      rw [h2]
      have : (∃ k, j = j0 + k ∧ (p :: ps)[k]? = some (i + 1)) ↔ ∃ k, j = j0 + 1 + k ∧ ps[k]? = some (i + 1) := by
        rw [hex]; constructor
        · rintro (⟨_, h⟩ | h)
          · omega
          · exact h
        · exact Or.inr
      simp only [this]

/-- `putAligVec` on a fresh matrix links column `j` with row `v[j]-1` when `v[j]>0`, and nothing else. -/
theorem C14_put_partial (I : Nat) (v : List Nat) (hv : ∀ p ∈ v, p ≤ I) :
    ∃ A, putAligVec (init I v.length) v = some A ∧ A.I = I ∧ A.J = v.length ∧
      ∀ i j, Link A i j ↔ v[j]? = some (i + 1) := by
  obtain ⟨m', h1, h2⟩ := putLoop_spec I v hv 0 (fun _ _ => 0)
  refine ⟨⟨I, v.length, m'⟩, ?_, rfl, rfl, fun i j => ?_⟩
  · unfold putAligVec; simp only [init, if_true]; rw [h1]; rfl
  · simp only [Link, h2]
    constructor
    · rintro ⟨_, _, h⟩
      split at h
      · rename_i hk; obtain ⟨k, e, hk⟩ := hk
        have : j = k := by omega
        rw [this]; exact hk
      · exact absurd rfl h
    · intro h
      obtain ⟨hj, he⟩ := List.getElem?_eq_some_iff.1 h
      have := hv _ (List.getElem_mem hj)
      rw [if_pos ⟨j, by omega, h⟩]
      exact ⟨by omega, hj, by simp⟩

private theorem getCol_spec (m : Cells) (j : Nat) (n i cur : Nat) :
    (getCol m j n i cur = none ↔
      (cur ≠ 0 ∧ ∃ a, i ≤ a ∧ a < i + n ∧ m a j ≠ 0) ∨
      (∃ a b, i ≤ a ∧ a < b ∧ b < i + n ∧ 0 < a ∧ m a j ≠ 0 ∧ m b j ≠ 0)) ∧
    (∀ r, getCol m j n i cur = some r →
      (r = cur ∧ (∀ a, i ≤ a → a < i + n → m a j ≠ 0 → (a = 0 ∧ cur = 0))) ∨
      (cur = 0 ∧ i ≤ r ∧ r < i + n ∧ 0 < r ∧ m r j ≠ 0)) := by
  induction n generalizing i cur with
  | zero =>
    constructor
    · simp only [getCol]
      constructor
      · intro h; cases h
      · rintro (⟨_, a, h1, h2, _⟩ | ⟨a, b, h1, h2, h3, _⟩) <;> omega
    · intro r h
      simp only [getCol, Option.some.injEq] at h
      exact Or.inl ⟨h.symm, fun a h1 h2 => by omega⟩
  | succ n ih =>
    rw [getCol]
    by_cases hm : m i j ≠ 0
    · rw [if_pos hm]
      by_cases hcur : cur = 0
      · subst hcur
        rw [if_pos rfl]
        obtain ⟨i1, i2⟩ := ih (i + 1) i
        constructor
        · rw [i1]
          constructor
          · rintro (⟨h0, a, h1, h2, h3⟩ | ⟨a, b, h1, h2, h3, h4⟩)
            · exact Or.inr ⟨i, a, by omega, by omega, by omega, by omega, hm, h3⟩
            · exact Or.inr ⟨a, b, by omega, by omega, by omega, h4⟩
          · rintro (⟨h0, _⟩ | ⟨a, b, h1, h2, h3, h4, h5, h6⟩)
            · exact absurd rfl h0
            · by_cases ha : a = i
              · subst ha; exact Or.inl ⟨by omega, b, by omega, by omega, h6⟩
              · exact Or.inr ⟨a, b, by omega, by omega, by omega, h4, h5, h6⟩
        · intro r hr
          rcases i2 r hr with ⟨h1, h2⟩ | ⟨h1, h2, h3, h4, h5⟩
          · subst h1
            by_cases hi : r = 0
            · left; refine ⟨hi, fun a ha1 ha2 ha3 => ?_⟩
              by_cases ha : a = r
              · exact ⟨by omega, rfl⟩
              · have := h2 a (by omega) (by omega) ha3; omega
            · right; exact ⟨rfl, by omega, by omega, by omega, hm⟩
          · right; exact ⟨rfl, by omega, by omega, h4, h5⟩
      · rw [if_neg hcur]
        constructor
        · exact ⟨fun _ => Or.inl ⟨hcur, i, by omega, by omega, hm⟩, fun _ => rfl⟩
        · intro r h; cases h
    · rw [if_neg hm]
      obtain ⟨i1, i2⟩ := ih (i + 1) cur
      have hne : ∀ a, m a j ≠ 0 → a ≠ i := fun a h1 h2 => hm (h2 ▸ h1)
      constructor
      · rw [i1]
        constructor
        · rintro (⟨h0, a, h1, h2, h3⟩ | ⟨a, b, h1, h2, h3, h4⟩)
          · exact Or.inl ⟨h0, a, by omega, by omega, h3⟩
          · exact Or.inr ⟨a, b, by omega, by omega, by omega, h4⟩
        · rintro (⟨h0, a, h1, h2, h3⟩ | ⟨a, b, h1, h2, h3, h4, h5, h6⟩)
          · have := hne a h3; exact Or.inl ⟨h0, a, by omega, by omega, h3⟩
          · have := hne a h5; exact Or.inr ⟨a, b, by omega, by omega, by omega, h4, h5, h6⟩
      · intro r hr
        rcases i2 r hr with ⟨h1, h2⟩ | ⟨h1, h2, h3, h4, h5⟩
        · exact Or.inl ⟨h1, fun a ha1 ha2 ha3 => h2 a (by have := hne a ha3; omega) (by omega) ha3⟩
        · exact Or.inr ⟨h1, by omega, by omega, h4, h5⟩

private theorem mapM_none {α β : Type} (f : α → Option β) (l : List α) :
    l.mapM f = none ↔ ∃ x ∈ l, f x = none := by
  induction l with
  | nil => simp
  | cons a l ih =>
    rw [List.mapM_cons]
    cases h : f a with
    | none => simp [h]
    | some b =>
      cases h' : List.mapM f l with
      | none => simp [h, ih.1 h']
      | some bs =>
        have : ¬ ∃ x ∈ l, f x = none := fun hh => by rw [ih.2 hh] at h'; cases h'
        simp only [h, List.mem_cons, exists_eq_or_imp, this, or_false]; simp

private theorem mapM_some {α β : Type} (f : α → Option β) (l : List α) (g : α → β)
    (h : ∀ x ∈ l, f x = some (g x)) : l.mapM f = some (l.map g) := by
  induction l with
  | nil => rfl
  | cons a l ih => rw [List.mapM_cons, h a (by simp), ih (fun x hx => h x (by simp [hx]))]; rfl

/-- **C14 (partial).** `getAligVec` fails exactly when some column has two links *below row 0*; missing:
columns whose first link is in row 0. -/
theorem C14_get_failure_partial (A : Mat) :
    getAligVec A = none ↔ ∃ j i i', 0 < i ∧ i < i' ∧ Link A i j ∧ Link A i' j := by
  unfold getAligVec
  rw [mapM_none]
  constructor
  · rintro ⟨j, hj, h⟩
    rw [List.mem_range] at hj
    rcases ((getCol_spec A.m j A.I 0 0).1).1 h with ⟨h0, _⟩ | ⟨a, b, h1, h2, h3, h4, h5, h6⟩
    · exact absurd rfl h0
    · exact ⟨j, a, b, h4, h2, ⟨by omega, hj, h5⟩, ⟨by omega, hj, h6⟩⟩
  · rintro ⟨j, a, b, h1, h2, h3, h4⟩
    exact ⟨j, List.mem_range.2 h3.2.1, ((getCol_spec A.m j A.I 0 0).1).2
      (Or.inr ⟨a, b, by omega, h2, by have := h4.1; omega, h1, h3.2.2, h4.2.2⟩)⟩

/-- **C14 (partial).** The round trip yields every position decreased by one (so position 1 and 0 coincide). -/
theorem C14_roundtrip_partial (I : Nat) (v : List Nat) (hv : ∀ p ∈ v, p ≤ I) :
    ∃ A, putAligVec (init I v.length) v = some A ∧ getAligVec A = some (v.map (· - 1)) := by
  obtain ⟨A, h1, h2, h3, h4⟩ := C14_put_partial I v hv
  refine ⟨A, h1, ?_⟩
  unfold getAligVec
  rw [mapM_some _ _ (fun j => v.getD j 0 - 1)]
  · congr 1
    apply List.ext_getElem
    · simp [h3]
    · intro n hn1 hn2
      simp only [List.length_map] at hn2
      simp [List.getD_eq_getElem?_getD, List.getElem?_eq_getElem hn2]
  · intro j hj
    rw [List.mem_range] at hj
    have hj' : j < v.length := by omega
    have hg : v.getD j 0 = v[j] := by simp [List.getD_eq_getElem?_getD, List.getElem?_eq_getElem hj']
    cases hc : getCol A.m j A.I 0 0 with
    | none =>
      exfalso
      rcases ((getCol_spec A.m j A.I 0 0).1).1 hc with ⟨h0, _⟩ | ⟨a, b, q1, q2, q3, q4, q5, q6⟩
      · exact h0 rfl
      · have e1 := (h4 a j).1 ⟨by omega, hj, q5⟩
        have e2 := (h4 b j).1 ⟨by omega, hj, q6⟩
        rw [e1] at e2; simp at e2; omega
    | some r =>
      congr 1
      rw [hg]
      rcases (getCol_spec A.m j A.I 0 0).2 r hc with ⟨q1, q2⟩ | ⟨_, q2, q3, q4, q5⟩
      · subst q1
        by_cases hz : v[j] = 0
        · omega
        · have hl := (h4 (v[j] - 1) j).2 (by
            rw [List.getElem?_eq_getElem hj']; congr 1; omega)
          have := q2 _ (by omega) (by have := hl.1; omega) hl.2.2
          omega
      · have e1 := (h4 r j).1 ⟨by omega, hj, q5⟩
        rw [List.getElem?_eq_getElem hj'] at e1
        simp at e1; omega

example : ∀ p ∈ [3, 0, 1, 2], p ≤ 3 := by decide

end Thot.WordAlig
