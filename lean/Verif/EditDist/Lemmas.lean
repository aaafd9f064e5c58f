import Verif.EditDist.Grid
import Verif.EditDist.Spec

namespace Thot.EditDist

variable {α : Type} [DecidableEq α]

/-! ### The grids of the two string-level cell functions -/

/-- `u`: use free deletions in the last column. -/
def gStr (k : Costs) (x y : List α) (u : Bool) : Grid where
  pair i j := if x[i - 1]? = y[j - 1]? then k.hit else k.subst
  del _ j := if (u && j == y.length && j != 0) = true then 0 else k.del
  ins _ _ := k.ins
  pairOp i j := if x[i - 1]? = y[j - 1]? then .hit else .subst
  delOp _ j := if j ≠ 0 ∧ (if (u && j == y.length && j != 0) = true then (0 : Score) else k.del) = 0 then .prefDel else .del

/-- The same grid with plain labels. -/
def gPlain (k : Costs) (x y : List α) : Grid := { gStr k x y false with delOp := fun _ _ => .del }

theorem cellPlain_ok (k : Costs) (x y : List α) (dm : DistMatrix) (i j : Nat) (hi : i ≤ x.length)
    (hj : j ≤ y.length) (hp : Preds (gPlain k x y) dm i j) :
    cellPlain k x y dm i j = some ((gPlain k x y).res i j) := by
  unfold cellPlain
  split
  · rename_i h
    have h1 : i - 1 < x.length := by omega
    have h2 : j - 1 < y.length := by omega
    have := interior_ok (gPlain k x y) h.1 h.2 hp
    simp only [gPlain, gStr, List.getElem?_eq_getElem h1, List.getElem?_eq_getElem h2, Option.some.injEq,
      Bool.false_and, Bool.false_eq_true, if_false] at this
    simp only [List.getElem?_eq_getElem h1, List.getElem?_eq_getElem h2, Option.bind_eq_bind, Option.bind_some]
    rw [this]
    simp [gPlain, gStr]
  · rename_i h
    apply border_ok _ h hp
    · intro h0
      have h1 : i - 1 < x.length := by omega
      simp [List.getElem?_eq_getElem h1, gPlain, gStr]
    · intro h0
      have h1 : j - 1 < y.length := by omega
      simp [List.getElem?_eq_getElem h1, gPlain, gStr]
    · intro _ _; rfl

theorem cellStrPref_ok (k : Costs) (x y : Str) (u : Bool) (dm : DistMatrix) (i j : Nat) (hi : i ≤ x.length)
    (hj : j ≤ y.length) (hp : Preds (gStr k x y u) dm i j) :
    cellStrPref k x y u dm i j = some ((gStr k x y u).res i j) := by
  unfold cellStrPref
  split
  · rename_i h
    have h1 : i - 1 < x.length := by omega
    have h2 : j - 1 < y.length := by omega
    have hj0 : (j != 0) = true := by simp [h.2]
    have := interior_ok (gStr k x y u) h.1 h.2 hp
    simp only [gStr, List.getElem?_eq_getElem h1, List.getElem?_eq_getElem h2, Option.some.injEq,
      hj0, Bool.and_true, ne_eq, h.2, not_false_eq_true, true_and] at this
    simp only [List.getElem?_eq_getElem h1, List.getElem?_eq_getElem h2, Option.bind_eq_bind, Option.bind_some]
    rw [this]
    simp [gStr]
  · rename_i h
    apply border_ok _ h hp
    · intro h0
      have h1 : i - 1 < x.length := by omega
      have : j = 0 := by omega
      simp [List.getElem?_eq_getElem h1, gStr, this]
    · intro h0
      have h1 : j - 1 < y.length := by omega
      simp [List.getElem?_eq_getElem h1, gStr]
    · intro _ h0; simp [gStr, h0]

/-! ### Scripts as paths -/

theorem Script.append {k : Costs} {x y x' y' : List α} {c c' : Score} (h : Script k x y c)
    (h' : Script k x' y' c') : Script k (x ++ x') (y ++ y') (c + c') := by
  induction h with
  | nil => rw [Rat.zero_add]; exact h'
  | hit a _ ih => rw [List.cons_append, List.cons_append, Rat.add_assoc]; exact .hit a ih
  | subst a b hab _ ih => rw [List.cons_append, List.cons_append, Rat.add_assoc]; exact .subst a b hab ih
  | ins b _ ih => rw [List.cons_append, Rat.add_assoc]; exact .ins b ih
  | del a _ ih => rw [List.cons_append, Rat.add_assoc]; exact .del a ih

omit [DecidableEq α] in
theorem Runs.append {o o' : List Op} {x y x' y' : List α} (h : Runs o x y)
    (h' : Runs o' x' y') : Runs (o ++ o') (x ++ x') (y ++ y') := by
  induction h with
  | nil => simpa using h'
  | hit a _ ih => exact .hit a ih
  | subst a b hab _ ih => exact .subst a b hab ih
  | ins b _ ih => exact .ins b ih
  | del a _ ih => exact .del a ih

theorem take_snoc {β : Type} {l : List β} {i : Nat} (hi : 0 < i) (hl : i ≤ l.length) :
    l.take i = l.take (i - 1) ++ [l[i - 1]'(by omega)] := by
  obtain ⟨i, rfl⟩ : ∃ i', i = i' + 1 := ⟨i - 1, by omega⟩
  simp only [Nat.add_sub_cancel]
  exact (List.take_append_getElem (by omega)).symm

/-- Lower bound: along a script for the rest of the sequences the value grows at most by its cost. -/
theorem D_le_script {k : Costs} {x y : List α} {c : Score} (h : Script k x y c) (u : Bool) :
    ∀ (x0 y0 X Y : List α), X = x0 ++ x → Y = y0 ++ y → (u = true → 0 ≤ k.del) →
      (gStr k X Y u).D X.length Y.length ≤ (gStr k X Y u).D x0.length y0.length + c := by
  induction h with
  | nil =>
    intro x0 y0 X Y hX hY _
    subst hX hY
    simp only [List.append_nil]
    rw [Rat.add_zero]
    exact Rat.le_refl
  | @hit x y c a h ih =>
    intro x0 y0 X Y hX hY hu
    have h1 := ih (x0 ++ [a]) (y0 ++ [a]) X Y (by simp [hX]) (by simp [hY]) hu
    have h2 := (gStr k X Y u).D_le .pair (x0.length + 1) (y0.length + 1) (by simp [Move.ok])
    have h3 : (gStr k X Y u).pair (x0.length + 1) (y0.length + 1) = k.hit := by
      simp [gStr, hX, hY]
    simp only [Move.pi, Move.pj, Nat.add_sub_cancel, Grid.cost, h3] at h2
    simp only [List.length_append, List.length_cons, List.length_nil, Nat.zero_add] at h1
    grind
  | @subst x y c a b hab h ih =>
    intro x0 y0 X Y hX hY hu
    have h1 := ih (x0 ++ [a]) (y0 ++ [b]) X Y (by simp [hX]) (by simp [hY]) hu
    have h2 := (gStr k X Y u).D_le .pair (x0.length + 1) (y0.length + 1) (by simp [Move.ok])
    have h3 : (gStr k X Y u).pair (x0.length + 1) (y0.length + 1) = k.subst := by
      simp [gStr, hX, hY, hab]
    simp only [Move.pi, Move.pj, Nat.add_sub_cancel, Grid.cost, h3] at h2
    simp only [List.length_append, List.length_cons, List.length_nil, Nat.zero_add] at h1
    grind
  | @ins x y c b h ih =>
    intro x0 y0 X Y hX hY hu
    have h1 := ih x0 (y0 ++ [b]) X Y hX (by simp [hY]) hu
    have h2 := (gStr k X Y u).D_le .ins x0.length (y0.length + 1) (by simp [Move.ok])
    have h3 : (gStr k X Y u).ins x0.length (y0.length + 1) = k.ins := rfl
    simp only [Move.pi, Move.pj, Nat.add_sub_cancel, Grid.cost, h3] at h2
    simp only [List.length_append, List.length_cons, List.length_nil, Nat.zero_add] at h1
    grind
  | @del x y c a h ih =>
    intro x0 y0 X Y hX hY hu
    have h1 := ih (x0 ++ [a]) y0 X Y (by simp [hX]) hY hu
    have h2 := (gStr k X Y u).D_le .del (x0.length + 1) y0.length (by simp [Move.ok])
    have h3 : (gStr k X Y u).del (x0.length + 1) y0.length ≤ k.del := by
      simp only [gStr]
      split
      · rename_i h; simp at h; exact hu h.1.1
      · exact Rat.le_refl
    simp only [Move.pi, Move.pj, Nat.add_sub_cancel, Grid.cost] at h2
    simp only [List.length_append, List.length_cons, List.length_nil, Nat.zero_add] at h1
    grind

omit [DecidableEq α] in
theorem getElem?_of_le {l : List α} {i : Nat} (h0 : 0 < i) (hi : i ≤ l.length) :
    l[i - 1]? = some (l[i - 1]'(by omega)) := List.getElem?_eq_getElem _

/-- The move chosen at a cell, as the last step of a script. -/
theorem step_script (k : Costs) (x y : List α) (u : Bool) (m : Move) (i j : Nat) (hok : m.ok i j)
    (hi : i ≤ x.length) (hj : j ≤ y.length) (hlast : m = .del → (u && j == y.length && j != 0) = false) :
    ∃ x1 y1, x.take i = x.take (m.pi i) ++ x1 ∧ y.take j = y.take (m.pj j) ++ y1 ∧
      Script k x1 y1 ((gStr k x y u).cost m i j) ∧
      (k.del ≠ 0 ∨ m ≠ .del → Runs [(gStr k x y u).op m i j] x1 y1) ∧
      Runs [(gPlain k x y).op m i j] x1 y1 := by
  cases m with
  | pair =>
    obtain ⟨h1, h2⟩ := hok
    refine ⟨[x[i - 1]'(by omega)], [y[j - 1]'(by omega)], take_snoc h1 hi, take_snoc h2 hj, ?_⟩
    simp only [Grid.cost, Grid.op, gStr, gPlain, getElem?_of_le h1 hi, getElem?_of_le h2 hj, Option.some.injEq]
    by_cases he : x[i - 1]'(by omega) = y[j - 1]'(by omega)
    · simp only [he, if_true]
      refine ⟨?_, fun _ => .hit _ .nil, .hit _ .nil⟩
      have := Script.hit (k := k) (y[j - 1]'(by omega)) .nil
      rwa [Rat.add_zero] at this
    · simp only [he, if_false]
      refine ⟨?_, fun _ => .subst _ _ he .nil, .subst _ _ he .nil⟩
      have := Script.subst (k := k) _ _ he .nil
      rwa [Rat.add_zero] at this
  | del =>
    refine ⟨[x[i - 1]'(by simp [Move.ok] at hok; omega)], [], take_snoc hok hi, by simp [Move.pj], ?_, ?_, .del _ .nil⟩
    · have := Script.del (k := k) (x[i - 1]'(by simp [Move.ok] at hok; omega)) .nil
      simp only [Grid.cost, gStr, hlast rfl]
      rwa [Rat.add_zero] at this
    · intro hd
      simp only [Grid.op, gStr, hlast rfl]
      have : k.del ≠ 0 := by rcases hd with h | h; exact h; exact absurd rfl h
      simp only [Bool.false_eq_true, if_false, this, and_false]
      exact .del _ .nil
  | ins =>
    refine ⟨[], [y[j - 1]'(by simp [Move.ok] at hok; omega)], by simp [Move.pi], take_snoc hok hj, ?_, ?_, .ins _ .nil⟩
    · have := Script.ins (k := k) (y[j - 1]'(by simp [Move.ok] at hok; omega)) .nil
      simp only [Grid.cost, gStr]
      rwa [Rat.add_zero] at this
    · intro _; exact .ins _ .nil

/-- The value of every cell is the cost of a script, which (with free deletions in the last column)
may leave out the end of the first sequence; the recorded operations perform that script. -/
theorem trace_script (k : Costs) (x y : List α) (u : Bool) (i j : Nat) :
    i ≤ x.length → j ≤ y.length →
    ∃ i', i' ≤ i ∧ ((u && j == y.length && j != 0) = false → i' = i) ∧
      Script k (x.take i') (y.take j) ((gStr k x y u).D i j) ∧
      (k.del ≠ 0 → Runs ((((gStr k x y u).tr i j).map Prod.fst).filter (· != .prefDel)).reverse
        (x.take i') (y.take j)) := by
  induction i, j using (gStr k x y u).tr_induct with
  | zero =>
    intro _ _
    refine ⟨0, Nat.le_refl _, fun _ => rfl, ?_, ?_⟩
    · rw [Grid.D]; exact .nil
    · intro _; rw [Grid.tr_zero]; exact .nil
  | step i j h ih =>
    intro hi hj
    have hok := (gStr k x y u).mv_ok i j h
    have hdec := Move.dec hok
    obtain ⟨i', hi', hfull, hs, hr⟩ := ih (Nat.le_trans hdec.2.1 hi) (Nat.le_trans hdec.2.2 hj)
    have hD := (gStr k x y u).D_eq_mv i j h
    rw [Grid.tr_cons _ h, hD]
    generalize hm : (gStr k x y u).mv i j = m at *
    by_cases hfree : m = .del ∧ (u && j == y.length && j != 0) = true
    · obtain ⟨rfl, hfree⟩ := hfree
      simp only [Move.pi, Move.pj] at hs hi' hr ⊢
      refine ⟨i', by omega, fun h => by rw [h] at hfree; simp at hfree, ?_, ?_⟩
      · have : (gStr k x y u).cost .del i j = 0 := by simp only [Grid.cost, gStr, hfree, if_true]
        rw [this, Rat.add_zero]
        exact hs
      · intro hk
        have hj0 : j ≠ 0 := by simp at hfree; exact hfree.2
        have : (gStr k x y u).op .del i j = .prefDel := by
          simp only [Grid.op, gStr, hfree, if_true, ne_eq, hj0, not_false_eq_true, and_self]
        simp only [List.map_cons, this]
        rw [List.filter_cons_of_neg (by simp)]
        exact hr hk
    · have hlast : m = .del → (u && j == y.length && j != 0) = false := by
        intro hmd
        cases hb : (u && j == y.length && j != 0) with
        | false => rfl
        | true => exact absurd ⟨hmd, hb⟩ hfree
      have hprev : (u && m.pj j == y.length && m.pj j != 0) = false := by
        cases m with
        | del => exact hlast rfl
        | pair => simp only [Move.ok, Move.pj] at hok ⊢; simp; intro _ h; omega
        | ins => simp only [Move.ok, Move.pj] at hok ⊢; simp; intro _ h; omega
      have hfull := hfull hprev
      subst hfull
      obtain ⟨x1, y1, hx, hy, hsc, hrun, -⟩ := step_script k x y u m i j hok hi hj hlast
      refine ⟨i, Nat.le_refl _, fun _ => rfl, ?_, ?_⟩
      · rw [hx, hy]; exact hs.append hsc
      · intro hk
        have hrun := hrun (Or.inl hk)
        have hne : (gStr k x y u).op m i j ≠ .prefDel := by
          intro he; rw [he] at hrun; cases hrun
        simp only [List.map_cons]
        rw [List.filter_cons_of_pos (by simp [hne]), List.reverse_cons, hx, hy]
        exact (hr hk).append hrun

theorem gPlain_D (k : Costs) (x y : List α) (i j : Nat) : (gPlain k x y).D i j = (gStr k x y false).D i j := by
  induction i generalizing j with
  | zero => induction j with
    | zero => rw [Grid.D, Grid.D]
    | succ j ih => rw [Grid.D, Grid.D, ih]; rfl
  | succ i ih => induction j with
    | zero => rw [Grid.D, Grid.D, ih]; rfl
    | succ j ihj => rw [Grid.D, Grid.D, ih, ih, ihj]; rfl

/-- The trace of the plain distance. -/
theorem trace_plain (k : Costs) (x y : List α) (i j : Nat) :
    i ≤ x.length → j ≤ y.length →
      Script k (x.take i) (y.take j) ((gPlain k x y).D i j) ∧
      Runs (((gPlain k x y).tr i j).map Prod.fst).reverse (x.take i) (y.take j) ∧
      ∀ e ∈ (gPlain k x y).tr i j, e.2.1 = opCost k e.1 := by
  induction i, j using (gPlain k x y).tr_induct with
  | zero =>
    intro _ _
    refine ⟨?_, ?_, ?_⟩
    · rw [Grid.D]; exact .nil
    · rw [Grid.tr_zero]; exact .nil
    · rw [Grid.tr_zero]; simp
  | step i j h ih =>
    intro hi hj
    have hok := (gPlain k x y).mv_ok i j h
    have hdec := Move.dec hok
    obtain ⟨hs, hr, hc⟩ := ih (Nat.le_trans hdec.2.1 hi) (Nat.le_trans hdec.2.2 hj)
    have hD := (gPlain k x y).D_eq_mv i j h
    rw [Grid.tr_cons _ h, hD]
    generalize hm : (gPlain k x y).mv i j = m at *
    obtain ⟨x1, y1, hx, hy, hsc, -, hrun⟩ := step_script k x y false m i j hok hi hj (by simp)
    refine ⟨?_, ?_, ?_⟩
    · rw [hx, hy]; exact hs.append hsc
    · simp only [List.map_cons]
      rw [List.reverse_cons, hx, hy]
      exact hr.append hrun
    · intro e he
      rcases List.mem_cons.1 he with he | he
      · subst he
        cases m with
        | pair =>
          simp only [Grid.cost, Grid.op, gPlain, gStr]
          split <;> rfl
        | del => simp [Grid.cost, Grid.op, gPlain, gStr, opCost]
        | ins => simp [Grid.cost, Grid.op, gPlain, gStr, opCost]
      · exact hc e he

theorem editDistDm_ok (k : Costs) (x y : List α) :
    ∃ dm, calculateEditDistDm k x y = some (dm, (gPlain k x y).D x.length y.length) ∧
      ∀ i j, i ≤ x.length → j ≤ y.length → rd dm i j = some ((gPlain k x y).D i j) := by
  obtain ⟨dm, h, hd⟩ := fillMatrix_ok (pureCell_implements (fun dm i j => cellPlain_ok k x y dm i j)) (s := ()) trivial
  refine ⟨dm, ?_, hd⟩
  simp [calculateEditDistDm, h, hd _ _ (Nat.le_refl _) (Nat.le_refl _)]

theorem obtainOperations_ok (k : Costs) (x y : List α) {dm : DistMatrix}
    (hd : ∀ i j, i ≤ x.length → j ≤ y.length → rd dm i j = some ((gPlain k x y).D i j)) :
    obtainOperations k x y dm x.length y.length =
      some ((((gPlain k x y).tr x.length y.length).map fun e => (e.1, e.2.1)).reverse) := by
  rw [obtainOperations, traceLoop_ok (fun i j => cellPlain_ok k x y dm i j) hd _ _ _ (Nat.le_refl _)
    (Nat.le_refl _) (Nat.le_refl _)]
  rfl

theorem strPrefixOpsAux_ok (k : Costs) (x y : Str) (u : Bool) :
    strPrefixOpsAux k x y u = some ((gStr k x y u).D x.length y.length,
      ((((gStr k x y u).tr x.length y.length).map Prod.fst).filter (· != .prefDel)).reverse) := by
  obtain ⟨dm, h, hd⟩ := fillMatrix_ok (pureCell_implements (fun dm i j => cellStrPref_ok k x y u dm i j)) (s := ()) trivial
  have ht := traceLoop_ok (fun i j => cellStrPref_ok k x y u dm i j) hd (x.length + y.length) _ _
    (Nat.le_refl _) (Nat.le_refl _) (Nat.le_refl _)
  simp [strPrefixOpsAux, h, hd _ _ (Nat.le_refl _) (Nat.le_refl _), obtainOperationsStrPref, ht]

/-! ### Counting -/

theorem countOps_append (l : List Op) (o : Op) : countOps (l ++ [o]) = countOp (countOps l) o := by
  simp [countOps]

/-- The sizes of the sequences and the cost of a script, from the number of operations. -/
theorem foldl_countOp (l : List Op) (c : OpCounts) :
    l.foldl countOp c = ⟨c.h + (countOps l).h, c.i + (countOps l).i, c.s + (countOps l).s, c.d + (countOps l).d⟩ := by
  induction l generalizing c with
  | nil => rfl
  | cons o l ih =>
    unfold countOps
    rw [List.foldl_cons, List.foldl_cons, ih, ih]
    cases o <;> simp [countOp] <;> omega

theorem countOps_cons (l : List Op) (o : Op) :
    countOps (o :: l) = ⟨(countOp ⟨0, 0, 0, 0⟩ o).h + (countOps l).h, (countOp ⟨0, 0, 0, 0⟩ o).i + (countOps l).i,
      (countOp ⟨0, 0, 0, 0⟩ o).s + (countOps l).s, (countOp ⟨0, 0, 0, 0⟩ o).d + (countOps l).d⟩ := by
  rw [countOps, List.foldl_cons, foldl_countOp]

omit [DecidableEq α] in
theorem Runs.counts {o : List Op} {x y : List α} (h : Runs o x y) :
    (countOps o).h + (countOps o).s + (countOps o).d = x.length ∧
    (countOps o).h + (countOps o).s + (countOps o).i = y.length := by
  induction h with
  | nil => simp [countOps]
  | _ => rw [countOps_cons]; simp only [countOp, List.length_cons]; omega

omit [DecidableEq α] in
theorem Runs.script {o : List Op} {x y : List α} (h : Runs o x y) (k : Costs) :
    Script k x y (k.hit * (countOps o).h + k.ins * (countOps o).i + k.subst * (countOps o).s +
      k.del * (countOps o).d) := by
  induction h with
  | nil => simp only [countOps, List.foldl_nil]; have := Script.nil (α := α) (k := k); simpa [Rat.mul_zero, Rat.add_zero] using this
  | hit a h ih =>
    have := Script.hit a ih
    rw [countOps_cons]; simp only [countOp]; push_cast
    refine (congrArg (Script k _ _) ?_).mp this
    grind
  | subst a b hab h ih =>
    have := Script.subst a b hab ih
    rw [countOps_cons]; simp only [countOp]; push_cast
    refine (congrArg (Script k _ _) ?_).mp this
    grind
  | ins b h ih =>
    have := Script.ins b ih
    rw [countOps_cons]; simp only [countOp]; push_cast
    refine (congrArg (Script k _ _) ?_).mp this
    grind
  | del a h ih =>
    have := Script.del a ih
    rw [countOps_cons]; simp only [countOp]; push_cast
    refine (congrArg (Script k _ _) ?_).mp this
    grind

/-- Sum of the costs of a list of operations. -/
def sumCost (k : Costs) (o : List Op) : Score := (o.map (opCost k)).foldr (· + ·) 0

theorem sumCost_eq (k : Costs) (o : List Op) :
    sumCost k o = k.hit * (countOps o).h + k.ins * (countOps o).i + k.subst * (countOps o).s +
      k.del * (countOps o).d := by
  induction o with
  | nil => simp [sumCost, countOps, Rat.mul_zero]; grind
  | cons e o ih =>
    have hs : sumCost k (e :: o) = opCost k e + sumCost k o := rfl
    rw [hs, ih, countOps_cons]
    cases e <;> simp only [countOp, opCost] <;> push_cast <;> grind

theorem foldr_add_acc (l : List Score) (a : Score) : l.foldr (· + ·) a = l.foldr (· + ·) 0 + a := by
  induction l with
  | nil => simp only [List.foldr_nil]; grind
  | cons b l ih => simp only [List.foldr_cons, ih]; grind

theorem foldr_add_reverse (l : List Score) : l.reverse.foldr (· + ·) 0 = l.foldr (· + ·) 0 := by
  induction l with
  | nil => rfl
  | cons a l ih =>
    rw [List.reverse_cons, List.foldr_append, foldr_add_acc, ih, List.foldr_cons, List.foldr_cons,
      List.foldr_nil]
    grind

theorem sumCost_reverse (k : Costs) (o : List Op) : sumCost k o.reverse = sumCost k o := by
  rw [sumCost, sumCost, List.map_reverse, foldr_add_reverse]

/-- The recorded operations cost the value of the cell. -/
theorem sumCost_tr (k : Costs) (x y : List α) (u : Bool) (i j : Nat) :
    sumCost k ((((gStr k x y u).tr i j).map Prod.fst).filter (· != .prefDel)) = (gStr k x y u).D i j := by
  induction i, j using (gStr k x y u).tr_induct with
  | zero => rw [Grid.tr_zero, Grid.D]; rfl
  | step i j h ih =>
    rw [Grid.tr_cons _ h, List.map_cons, List.filter_cons, Grid.D_eq_mv _ i j h, ← ih]
    generalize (gStr k x y u).mv i j = m
    simp only
    generalize List.filter (· != Op.prefDel) _ = l
    have hs : ∀ o, sumCost k (o :: l) = opCost k o + sumCost k l := fun _ => rfl
    cases m with
    | pair =>
      simp only [Grid.op, Grid.cost, gStr]
      split
      · rw [if_pos (by rfl), hs, opCost]; grind
      · rw [if_pos (by rfl), hs, opCost]; grind
    | ins =>
      have h1 : (gStr k x y u).op .ins i j = .ins := rfl
      have h2 : (gStr k x y u).cost .ins i j = k.ins := rfl
      rw [h1, h2, if_pos (by rfl), hs, opCost]; grind
    | del =>
      simp only [Grid.op, Grid.cost, gStr]
      by_cases hf : (u && j == y.length && j != 0) = true
      · have hj0 : j ≠ 0 := by simp at hf; exact hf.2
        simp only [hf, if_true, ne_eq, hj0, not_false_eq_true, and_self]
        rw [if_neg (by simp)]; grind
      · simp only [hf, Bool.false_eq_true, if_false]
        by_cases hd : j ≠ 0 ∧ k.del = 0
        · rw [if_pos hd, if_neg (by simp)]; grind
        · rw [if_neg hd, if_pos (by rfl), hs, opCost]; grind

theorem tr_sum (k : Costs) (x y : List α) (i j : Nat) :
    (((gPlain k x y).tr i j).map fun e => e.2.1).foldr (· + ·) 0 = (gPlain k x y).D i j := by
  induction i, j using (gPlain k x y).tr_induct with
  | zero => rw [Grid.tr_zero, Grid.D]; rfl
  | step i j h ih =>
    rw [Grid.tr_cons _ h, List.map_cons, List.foldr_cons, ih, Grid.D_eq_mv _ i j h]
    grind

end Thot.EditDist
