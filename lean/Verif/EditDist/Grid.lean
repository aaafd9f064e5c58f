import Verif.EditDist.Model

/-! Generic facts about the row-by-row filling of a distance matrix and the trace-back. -/

namespace Thot.EditDist

/-- Costs of the three moves that enter a cell `(i,j)`, and their labels. -/
structure Grid where
  pair : Nat → Nat → Score
  del : Nat → Nat → Score
  ins : Nat → Nat → Score
  pairOp : Nat → Nat → Op
  delOp : Nat → Nat → Op

/-- The three moves. -/
inductive Move where
  | pair | del | ins
  deriving DecidableEq

/-- Value of cell `(i,j)`. -/
def Grid.D (g : Grid) : Nat → Nat → Score
  | 0, 0 => 0
  | 0, j + 1 => g.D 0 j + g.ins 0 (j + 1)
  | i + 1, 0 => g.D i 0 + g.del (i + 1) 0
  | i + 1, j + 1 =>
    let m0 := g.D i j + g.pair (i + 1) (j + 1)
    let u := g.D i (j + 1) + g.del (i + 1) (j + 1)
    let l := g.D (i + 1) j + g.ins (i + 1) (j + 1)
    let m1 := if u < m0 then u else m0
    if l < m1 then l else m1

/-- The move chosen at cell `(i,j)`. -/
def Grid.mv (g : Grid) : Nat → Nat → Move
  | 0, _ => .ins
  | _ + 1, 0 => .del
  | i + 1, j + 1 =>
    let m0 := g.D i j + g.pair (i + 1) (j + 1)
    let u := g.D i (j + 1) + g.del (i + 1) (j + 1)
    let l := g.D (i + 1) j + g.ins (i + 1) (j + 1)
    let m1 := if u < m0 then u else m0
    if l < m1 then .ins else if u < m0 then .del else .pair

def Move.pi (m : Move) (i : Nat) : Nat := match m with | .pair => i - 1 | .del => i - 1 | .ins => i
def Move.pj (m : Move) (j : Nat) : Nat := match m with | .pair => j - 1 | .del => j | .ins => j - 1

def Grid.cost (g : Grid) (m : Move) (i j : Nat) : Score :=
  match m with | .pair => g.pair i j | .del => g.del i j | .ins => g.ins i j

def Grid.op (g : Grid) (m : Move) (i j : Nat) : Op :=
  match m with | .pair => g.pairOp i j | .del => g.delOp i j | .ins => .ins

/-- A move can enter `(i,j)`. -/
def Move.ok (m : Move) (i j : Nat) : Prop :=
  match m with | .pair => 0 < i ∧ 0 < j | .del => 0 < i | .ins => 0 < j

theorem Grid.mv_ok (g : Grid) (i j : Nat) (h : i > 0 ∨ j > 0) : (g.mv i j).ok i j := by
  match i, j with
  | 0, 0 => omega
  | 0, j + 1 => simp [Grid.mv, Move.ok]
  | i + 1, 0 => simp [Grid.mv, Move.ok]
  | i + 1, j + 1 =>
    simp only [Grid.mv]
    repeat' split
    all_goals simp [Move.ok]

theorem Grid.D_eq_mv (g : Grid) (i j : Nat) (h : i > 0 ∨ j > 0) :
    g.D i j = g.D ((g.mv i j).pi i) ((g.mv i j).pj j) + g.cost (g.mv i j) i j := by
  match i, j with
  | 0, 0 => omega
  | 0, j + 1 => simp [Grid.mv, Move.pi, Move.pj, Grid.cost, Grid.D]
  | i + 1, 0 => simp [Grid.mv, Move.pi, Move.pj, Grid.cost, Grid.D]
  | i + 1, j + 1 =>
    rw [Grid.D]
    simp only [Grid.mv]
    by_cases hu : g.D i (j + 1) + g.del (i + 1) (j + 1) < g.D i j + g.pair (i + 1) (j + 1)
    · simp only [hu, if_true]
      split <;> simp [Move.pi, Move.pj, Grid.cost]
    · simp only [hu, if_false]
      split <;> simp [Move.pi, Move.pj, Grid.cost]

theorem Grid.D_le (g : Grid) (m : Move) (i j : Nat) (h : m.ok i j) :
    g.D i j ≤ g.D (m.pi i) (m.pj j) + g.cost m i j := by
  match i, j with
  | 0, 0 => cases m <;> simp [Move.ok] at h
  | 0, j + 1 =>
    cases m with
    | ins => simp only [Move.pi, Move.pj, Grid.cost, Grid.D, Nat.add_sub_cancel]; exact Rat.le_refl
    | _ => simp [Move.ok] at h
  | i + 1, 0 =>
    cases m with
    | del => simp only [Move.pi, Move.pj, Grid.cost, Grid.D, Nat.add_sub_cancel]; exact Rat.le_refl
    | _ => simp [Move.ok] at h
  | i + 1, j + 1 =>
    rw [Grid.D]
    cases m <;> simp only [Move.pi, Move.pj, Grid.cost, Nat.add_sub_cancel] <;> grind

/-! ### Matrices -/

/-- A square matrix of side `n`. -/
def Shape (dm : DistMatrix) (n : Nat) : Prop := dm.length = n ∧ ∀ r ∈ dm, r.length = n

theorem shape_init (nx ny : Nat) : Shape (initDm nx ny) (max nx ny + 1) := by
  refine ⟨by simp [initDm], ?_⟩
  intro r hr
  simp only [initDm, List.mem_replicate] at hr
  rw [hr.2]; simp

theorem wr_ok {dm : DistMatrix} {n i j : Nat} (hs : Shape dm n) (hi : i < n) (hj : j < n) (v : Score) :
    ∃ dm', wr dm i j v = some dm' ∧ Shape dm' n ∧ rd dm' i j = some v ∧
      ∀ i' j', (i' ≠ i ∨ j' ≠ j) → rd dm' i' j' = rd dm i' j' := by
  have hi' : i < dm.length := by rw [hs.1]; exact hi
  have hr : dm[i].length = n := hs.2 _ (List.getElem_mem hi')
  refine ⟨dm.set i (dm[i].set j v), ?_, ⟨?_, ?_⟩, ?_, ?_⟩
  · simp [wr, List.getElem?_eq_getElem hi', hr, hj]
  · simp [hs.1]
  · intro r hr'
    rcases List.mem_or_eq_of_mem_set hr' with h | h
    · exact hs.2 _ h
    · rw [h]; simp [hr]
  · have : j < dm[i].length := by rw [hr]; exact hj
    simp [rd, hi', this]
  · intro i' j' hne
    unfold rd
    by_cases h : i' = i
    · subst i'
      have hj' : j' ≠ j := hne.resolve_left (fun h => h rfl)
      simp only [List.getElem?_set_self hi', List.getElem?_eq_getElem hi']
      rw [List.getElem?_set_ne (fun h => hj' h.symm)]
    · rw [List.getElem?_set_ne (fun h' => h h'.symm)]

/-- The predecessors of `(i,j)` hold their values. -/
def Preds (g : Grid) (dm : DistMatrix) (i j : Nat) : Prop :=
  (0 < i → 0 < j → rd dm (i - 1) (j - 1) = some (g.D (i - 1) (j - 1))) ∧
  (0 < i → rd dm (i - 1) j = some (g.D (i - 1) j)) ∧
  (0 < j → rd dm i (j - 1) = some (g.D i (j - 1)))

/-- What a cell function has to return at `(i,j)`. -/
def Grid.res (g : Grid) (i j : Nat) : CellRes :=
  if i = 0 ∧ j = 0 then ⟨0, 0, 0, .none⟩
  else ⟨g.D i j, (g.mv i j).pi i, (g.mv i j).pj j, g.op (g.mv i j) i j⟩

theorem Grid.res_cost (g : Grid) (i j : Nat) : (g.res i j).cost = g.D i j := by
  unfold Grid.res
  split
  · rename_i h; obtain ⟨rfl, rfl⟩ := h; rw [Grid.D]
  · rfl

/-- A stateful cell function computes the grid, keeping `I`. -/
def Implements {σ : Type} (g : Grid) (I : σ → Prop) (nx ny : Nat)
    (cell : σ → DistMatrix → Nat → Nat → Option (σ × CellRes)) : Prop :=
  ∀ s dm i j, I s → i ≤ nx → j ≤ ny → Preds g dm i j →
    ∃ s', cell s dm i j = some (s', g.res i j) ∧ I s'

/-- Cells lexicographically before `(i,j)` (within the first `ny+1` columns) hold their values. -/
def Done (g : Grid) (dm : DistMatrix) (ny i j : Nat) : Prop :=
  ∀ i' j', j' ≤ ny → (i' < i ∨ (i' = i ∧ j' < j)) → rd dm i' j' = some (g.D i' j')

theorem fillRow_ok {σ : Type} {g : Grid} {I : σ → Prop} {nx ny n : Nat}
    {cell : σ → DistMatrix → Nat → Nat → Option (σ × CellRes)} (hc : Implements g I nx ny cell)
    (hx : nx < n) (hy : ny < n) (i : Nat) (hi : i ≤ nx) (len : Nat) :
    ∀ (j : Nat) (s : σ) (dm : DistMatrix), j + len = ny + 1 → I s → Shape dm n → Done g dm ny i j →
      ∃ s' dm', fillRow cell i (List.range' j len) s dm = some (s', dm') ∧ I s' ∧ Shape dm' n ∧
        Done g dm' ny (i + 1) 0 := by
  induction len with
  | zero =>
    intro j s dm hj hI hs hd
    refine ⟨s, dm, by simp [fillRow], hI, hs, ?_⟩
    intro i' j' hj' h
    apply hd i' j' hj'
    omega
  | succ len ih =>
    intro j s dm hj hI hs hd
    have hp : Preds g dm i j := by
      refine ⟨?_, ?_, ?_⟩
      · intro h1 h2; apply hd <;> omega
      · intro h1; apply hd <;> omega
      · intro h1; apply hd <;> omega
    obtain ⟨s1, h1, hI1⟩ := hc s dm i j hI hi (by omega) hp
    obtain ⟨dm1, hw, hs1, hself, hoth⟩ := wr_ok hs (i := i) (j := j) (by omega) (by omega) (g.res i j).cost
    have hd1 : Done g dm1 ny i (j + 1) := by
      intro i' j' hj' h
      by_cases he : i' = i ∧ j' = j
      · obtain ⟨rfl, rfl⟩ := he
        rw [hself, Grid.res_cost]
      · rw [hoth i' j' (by omega)]
        apply hd i' j' hj'
        omega
    obtain ⟨s2, dm2, h2, hI2, hs2, hd2⟩ := ih (j + 1) s1 dm1 (by omega) hI1 hs1 hd1
    refine ⟨s2, dm2, ?_, hI2, hs2, hd2⟩
    rw [List.range'_succ, fillRow, h1]
    simp only
    rw [hw]
    exact h2

theorem fillRows_ok {σ : Type} {g : Grid} {I : σ → Prop} {nx ny n : Nat}
    {cell : σ → DistMatrix → Nat → Nat → Option (σ × CellRes)} (hc : Implements g I nx ny cell)
    (hx : nx < n) (hy : ny < n) (len : Nat) :
    ∀ (i : Nat) (s : σ) (dm : DistMatrix), i + len = nx + 1 → I s → Shape dm n → Done g dm ny i 0 →
      ∃ s' dm', fillRows cell ny (List.range' i len) s dm = some (s', dm') ∧ I s' ∧ Shape dm' n ∧
        Done g dm' ny (nx + 1) 0 := by
  induction len with
  | zero =>
    intro i s dm hi hI hs hd
    have : i = nx + 1 := by omega
    subst this
    exact ⟨s, dm, by simp [fillRows], hI, hs, hd⟩
  | succ len ih =>
    intro i s dm hi hI hs hd
    obtain ⟨s1, dm1, h1, hI1, hs1, hd1⟩ :=
      fillRow_ok hc hx hy i (by omega) (ny + 1) 0 s dm (by omega) hI hs hd
    obtain ⟨s2, dm2, h2, hI2, hs2, hd2⟩ := ih (i + 1) s1 dm1 (by omega) hI1 hs1 hd1
    refine ⟨s2, dm2, ?_, hI2, hs2, hd2⟩
    rw [List.range'_succ, fillRows, List.range_eq_range', h1]
    exact h2

theorem fillMatrix_ok {σ : Type} {g : Grid} {I : σ → Prop} {nx ny : Nat}
    {cell : σ → DistMatrix → Nat → Nat → Option (σ × CellRes)} (hc : Implements g I nx ny cell)
    {s : σ} (hI : I s) :
    ∃ dm, fillMatrix cell s nx ny = some dm ∧
      ∀ i j, i ≤ nx → j ≤ ny → rd dm i j = some (g.D i j) := by
  obtain ⟨s', dm', h, -, -, hd⟩ := fillRows_ok hc (n := max nx ny + 1) (by omega) (by omega)
    (nx + 1) 0 s (initDm nx ny) (by omega) hI (shape_init nx ny) (by intro i' j' _ h; omega)
  refine ⟨dm', ?_, fun i j hi hj => hd i j hj (by omega)⟩
  rw [fillMatrix, List.range_eq_range', h]
  rfl

theorem pureCell_implements {g : Grid} {nx ny : Nat} {cell : DistMatrix → Nat → Nat → Option CellRes}
    (h : ∀ dm i j, i ≤ nx → j ≤ ny → Preds g dm i j → cell dm i j = some (g.res i j)) :
    Implements g (fun _ => True) nx ny (pureCell cell) := by
  intro s dm i j _ hi hj hp
  exact ⟨(), by simp [pureCell, h dm i j hi hj hp], trivial⟩

/-! ### Cells -/

theorem interior_ok (g : Grid) {dm : DistMatrix} {i j : Nat} (hi : i ≠ 0) (hj : j ≠ 0)
    (hp : Preds g dm i j) :
    interior dm i j (g.pair i j) (g.pairOp i j) (g.del i j) (g.delOp i j) (g.ins i j) =
      some (g.res i j) := by
  obtain ⟨i, rfl⟩ : ∃ i', i = i' + 1 := ⟨i - 1, by omega⟩
  obtain ⟨j, rfl⟩ : ∃ j', j = j' + 1 := ⟨j - 1, by omega⟩
  obtain ⟨h1, h2, h3⟩ := hp
  have h1 := h1 (by omega) (by omega)
  have h2 := h2 (by omega)
  have h3 := h3 (by omega)
  simp only [Nat.add_sub_cancel] at h1 h2 h3
  simp only [interior, Nat.add_sub_cancel, h1, h2, h3, Option.bind_eq_bind, Option.bind_some]
  congr 1
  simp only [Grid.res, Grid.mv, Grid.D, relaxIns, relaxDel, Nat.add_sub_cancel, Nat.add_eq_zero_iff,
    Nat.one_ne_zero, and_false, false_and, if_false]
  by_cases hu : g.D i (j + 1) + g.del (i + 1) (j + 1) < g.D i j + g.pair (i + 1) (j + 1)
  · simp only [hu, if_true]
    by_cases hl : g.D (i + 1) j + g.ins (i + 1) (j + 1) < g.D i (j + 1) + g.del (i + 1) (j + 1)
    · simp [hl, Move.pi, Move.pj, Grid.op]
    · simp [hl, Move.pi, Move.pj, Grid.op]
  · simp only [hu, if_false]
    by_cases hl : g.D (i + 1) j + g.ins (i + 1) (j + 1) < g.D i j + g.pair (i + 1) (j + 1)
    · simp [hl, Move.pi, Move.pj, Grid.op]
    · simp [hl, Move.pi, Move.pj, Grid.op]

theorem border_ok (g : Grid) {dm : DistMatrix} {i j : Nat} {dc ic : Option Score}
    (hb : ¬ (i ≠ 0 ∧ j ≠ 0)) (hp : Preds g dm i j)
    (hdc : i ≠ 0 → dc = some (g.del i j)) (hic : j ≠ 0 → ic = some (g.ins i j))
    (hop : i ≠ 0 → j = 0 → g.delOp i j = .del) :
    border dm i j dc ic = some (g.res i j) := by
  obtain ⟨-, h2, h3⟩ := hp
  match i, j with
  | 0, 0 => simp [border, Grid.res]
  | 0, j + 1 =>
    have h3 := h3 (by omega)
    simp only [Nat.add_sub_cancel] at h3
    simp [border, h3, hic, Grid.res, Grid.mv, Grid.D, Move.pi, Move.pj, Grid.op]
  | i + 1, 0 =>
    have h2 := h2 (by omega)
    simp only [Nat.add_sub_cancel] at h2
    have := hop (by omega) rfl
    simp [border, h2, hdc, Grid.res, Grid.mv, Grid.D, Move.pi, Move.pj, Grid.op, this]
  | i + 1, j + 1 => exact absurd ⟨by omega, by omega⟩ hb

/-! ### Trace-back -/

/-- The trace-back of the grid, last operation first. -/
def Grid.tr (g : Grid) (i j : Nat) : List (Op × Score × Nat × Nat) :=
  if h : i > 0 ∨ j > 0 then
    (g.op (g.mv i j) i j, g.cost (g.mv i j) i j, (g.mv i j).pi i, (g.mv i j).pj j) ::
      g.tr ((g.mv i j).pi i) ((g.mv i j).pj j)
  else []
termination_by i + j
decreasing_by
  have := g.mv_ok i j h
  revert this
  cases g.mv i j <;> simp [Move.ok, Move.pi, Move.pj] <;> omega

theorem Move.dec {m : Move} {i j : Nat} (h : m.ok i j) : m.pi i + m.pj j < i + j ∧ m.pi i ≤ i ∧ m.pj j ≤ j := by
  revert h
  cases m <;> simp [Move.ok, Move.pi, Move.pj] <;> omega

theorem traceLoop_ok {g : Grid} {nx ny : Nat} {cell : DistMatrix → Nat → Nat → Option CellRes}
    {dm : DistMatrix} (hc : ∀ i j, i ≤ nx → j ≤ ny → Preds g dm i j → cell dm i j = some (g.res i j))
    (hd : ∀ i j, i ≤ nx → j ≤ ny → rd dm i j = some (g.D i j)) :
    ∀ fuel i j, i ≤ nx → j ≤ ny → i + j ≤ fuel → traceLoop cell dm fuel i j = some (g.tr i j) := by
  intro fuel
  induction fuel with
  | zero =>
    intro i j hi hj hf
    have : i = 0 := by omega
    have : j = 0 := by omega
    subst i j
    rw [traceLoop, Grid.tr]
    simp
  | succ fuel ih =>
    intro i j hi hj hf
    by_cases h : i > 0 ∨ j > 0
    · rw [traceLoop.eq_def, Grid.tr]
      simp only [h, if_true, dif_pos]
      have hp : Preds g dm i j := ⟨fun _ _ => hd _ _ (by omega) (by omega), fun _ => hd _ _ (by omega) (by omega),
        fun _ => hd _ _ (by omega) (by omega)⟩
      have hok := g.mv_ok i j h
      have hdec := Move.dec hok
      have hres : g.res i j = ⟨g.D i j, (g.mv i j).pi i, (g.mv i j).pj j, g.op (g.mv i j) i j⟩ := by
        unfold Grid.res
        rw [if_neg (by omega)]
      simp only [hc i j hi hj hp, hres, hd _ _ (Nat.le_trans hdec.2.1 hi) (Nat.le_trans hdec.2.2 hj)]
      rw [ih _ _ (Nat.le_trans hdec.2.1 hi) (Nat.le_trans hdec.2.2 hj) (by omega)]
      simp only [Option.some.injEq, List.cons.injEq, Prod.mk.injEq, and_true, true_and]
      have := g.D_eq_mv i j h
      grind
    · rw [traceLoop.eq_def, Grid.tr]
      simp [h]

/-- Induction along the trace-back. -/
@[elab_as_elim] theorem Grid.tr_induct (g : Grid) {P : Nat → Nat → Prop} (zero : P 0 0)
    (step : ∀ i j, (i > 0 ∨ j > 0) → P ((g.mv i j).pi i) ((g.mv i j).pj j) → P i j) (i j : Nat) : P i j := by
  generalize hn : i + j = n
  induction n using Nat.strongRecOn generalizing i j with
  | ind n ih =>
    by_cases h : i > 0 ∨ j > 0
    · exact step i j h (ih _ (by have := Move.dec (g.mv_ok i j h); omega) _ _ rfl)
    · have : i = 0 := by omega
      have : j = 0 := by omega
      subst i j
      exact zero

theorem Grid.tr_cons (g : Grid) {i j : Nat} (h : i > 0 ∨ j > 0) :
    g.tr i j = (g.op (g.mv i j) i j, g.cost (g.mv i j) i j, (g.mv i j).pi i, (g.mv i j).pj j) ::
      g.tr ((g.mv i j).pi i) ((g.mv i j).pj j) := by
  rw [Grid.tr, dif_pos h]

theorem Grid.tr_zero (g : Grid) : g.tr 0 0 = [] := by
  rw [Grid.tr]; simp

end Thot.EditDist
