import Verif.EditDist.WordLemmas

namespace Thot.EditDist

theorem WScript.append {k : Costs} {x x' : List Str} {y y' : List PWord} {c c' : Score} (h : WScript k x y c)
    (h' : WScript k x' y' c') : WScript k (x ++ x') (y ++ y') (c + c') := by
  induction h with
  | nil => rw [Rat.zero_add]; exact h'
  | pair a b _ ih => rw [List.cons_append, List.cons_append, Rat.add_assoc]; exact .pair a b ih
  | ins b _ ih => rw [List.cons_append, Rat.add_assoc]; exact .ins b ih
  | del a _ ih => rw [List.cons_append, Rat.add_assoc]; exact .del a ih

theorem mark_str (lc : Bool) (y : List Str) (j : Nat) : (mark lc y)[j]?.map PWord.str = y[j]? := by
  by_cases hj : j < y.length
  · rw [mark_get _ _ _ hj, List.getElem?_eq_getElem hj]
    simp only [Option.map_some, Option.some.injEq]
    split <;> rfl
  · rw [List.getElem?_eq_none (by rw [length_mark]; omega), List.getElem?_eq_none (by omega)]
    rfl

theorem mul_len_nonneg {d : Score} (hd : 0 ≤ d) (n : Nat) : 0 ≤ d * n := by
  apply Rat.mul_nonneg hd
  exact_mod_cast Nat.zero_le n

theorem D_le_wscript {k : Costs} {x : List Str} {Y : List PWord} {c : Score} (h : WScript k x Y c) (u lc : Bool)
    (hu : u = true → 0 ≤ k.del) (y X : List Str) :
    ∀ (x0 : List Str) (Y0 : List PWord), X = x0 ++ x → mark lc y = Y0 ++ Y →
      (gW k X y lc u).D X.length y.length ≤ (gW k X y lc u).D x0.length Y0.length + c := by
  induction h with
  | nil =>
    intro x0 Y0 hX hY
    have : y.length = Y0.length := by rw [← length_mark lc y, hY]; simp
    rw [this, hX, Rat.add_zero]
    simp only [List.append_nil]
    exact Rat.le_refl
  | @pair x Y c a b h ih =>
    intro x0 Y0 hX hY
    have h1 := ih (x0 ++ [a]) (Y0 ++ [b]) (by simp [hX]) (by simp [hY])
    have h2 := (gW k X y lc u).D_le .pair (x0.length + 1) (Y0.length + 1) (by simp [Move.ok])
    have h3 : (gW k X y lc u).pair (x0.length + 1) (Y0.length + 1) = pairC k a b := by
      simp [gW, hX, hY, pairAt]
    simp only [Move.pi, Move.pj, Nat.add_sub_cancel, Grid.cost, h3] at h2
    simp only [List.length_append, List.length_cons, List.length_nil, Nat.zero_add] at h1
    grind
  | @ins x Y c b h ih =>
    intro x0 Y0 hX hY
    have h1 := ih x0 (Y0 ++ [b]) hX (by simp [hY])
    have h2 := (gW k X y lc u).D_le .ins x0.length (Y0.length + 1) (by simp [Move.ok])
    have h3 : (gW k X y lc u).ins x0.length (Y0.length + 1) = k.ins * b.str.length := by
      have : y[Y0.length]? = some b.str := by rw [← mark_str lc y, hY]; simp
      simp [gW, this, wordInsCost]
    simp only [Move.pi, Move.pj, Nat.add_sub_cancel, Grid.cost, h3] at h2
    simp only [List.length_append, List.length_cons, List.length_nil, Nat.zero_add] at h1
    grind
  | @del x Y c a h ih =>
    intro x0 Y0 hX hY
    have h1 := ih (x0 ++ [a]) Y0 (by simp [hX]) hY
    have h2 := (gW k X y lc u).D_le .del (x0.length + 1) Y0.length (by simp [Move.ok])
    have h3 : (gW k X y lc u).del (x0.length + 1) Y0.length ≤ k.del * a.length := by
      simp only [gW]
      split
      · rename_i h; simp at h; exact mul_len_nonneg (hu h.1.1) _
      · simp [hX, wordDelCost, Rat.le_refl]
    simp only [Move.pi, Move.pj, Nat.add_sub_cancel, Grid.cost] at h2
    simp only [List.length_append, List.length_cons, List.length_nil, Nat.zero_add] at h1
    grind

theorem wstep_script (k : Costs) (x y : List Str) (lc u : Bool) (m : Move) (i j : Nat) (hok : m.ok i j)
    (hi : i ≤ x.length) (hj : j ≤ y.length) (hlast : m = .del → (u && j == y.length && j != 0) = false) :
    ∃ x1 Y1, x.take i = x.take (m.pi i) ++ x1 ∧ (mark lc y).take j = (mark lc y).take (m.pj j) ++ Y1 ∧
      WScript k x1 Y1 ((gW k x y lc u).cost m i j) := by
  have hj' : j ≤ (mark lc y).length := by rw [length_mark]; exact hj
  cases m with
  | pair =>
    obtain ⟨h1, h2⟩ := hok
    refine ⟨[x[i - 1]'(by omega)], [(mark lc y)[j - 1]'(by omega)], take_snoc h1 hi, take_snoc h2 hj', ?_⟩
    have := WScript.pair (k := k) (x[i - 1]'(by omega)) ((mark lc y)[j - 1]'(by omega)) .nil
    rw [Rat.add_zero] at this
    simpa only [Grid.cost, gW, getElem?_of_le h1 hi, getElem?_of_le h2 hj', pairAt] using this
  | del =>
    have h1 : 0 < i := hok
    refine ⟨[x[i - 1]'(by omega)], [], take_snoc hok hi, by simp [Move.pj], ?_⟩
    have := WScript.del (k := k) (x[i - 1]'(by omega)) .nil
    rw [Rat.add_zero] at this
    simpa only [Grid.cost, gW, hlast rfl, Bool.false_eq_true, if_false, getElem?_of_le h1 hi, Option.getD_some,
      wordDelCost] using this
  | ins =>
    have h1 : 0 < j := hok
    refine ⟨[], [(mark lc y)[j - 1]'(by omega)], by simp [Move.pi], take_snoc hok hj', ?_⟩
    have := WScript.ins (k := k) ((mark lc y)[j - 1]'(by omega)) .nil
    rw [Rat.add_zero] at this
    have hs : y[j - 1]? = some ((mark lc y)[j - 1]'(by omega)).str := by
      rw [← mark_str lc y, getElem?_of_le h1 hj']; rfl
    simpa only [Grid.cost, gW, hs, Option.getD_some, wordInsCost] using this

theorem trace_wscript (k : Costs) (x y : List Str) (lc u : Bool) (i j : Nat) :
    i ≤ x.length → j ≤ y.length →
    ∃ i', i' ≤ i ∧ ((u && j == y.length && j != 0) = false → i' = i) ∧
      WScript k (x.take i') ((mark lc y).take j) ((gW k x y lc u).D i j) := by
  induction i, j using (gW k x y lc u).tr_induct with
  | zero =>
    intro _ _
    refine ⟨0, Nat.le_refl _, fun _ => rfl, ?_⟩
    rw [Grid.D]; exact .nil
  | step i j h ih =>
    intro hi hj
    have hok := (gW k x y lc u).mv_ok i j h
    have hdec := Move.dec hok
    obtain ⟨i', hi', hfull, hs⟩ := ih (Nat.le_trans hdec.2.1 hi) (Nat.le_trans hdec.2.2 hj)
    have hD := (gW k x y lc u).D_eq_mv i j h
    rw [hD]
    generalize hm : (gW k x y lc u).mv i j = m at *
    by_cases hfree : m = .del ∧ (u && j == y.length && j != 0) = true
    · obtain ⟨rfl, hfree⟩ := hfree
      simp only [Move.pi, Move.pj] at hs hi' ⊢
      refine ⟨i', by omega, fun h => by rw [h] at hfree; simp at hfree, ?_⟩
      have : (gW k x y lc u).cost .del i j = 0 := by simp only [Grid.cost, gW, hfree, if_true]
      rw [this, Rat.add_zero]
      exact hs
    · have hlast : m = .del → (u && j == y.length && j != 0) = false := by
        intro hmd
        cases hb : (u && j == y.length && j != 0) with
        | false => rfl
        | true => exact absurd ⟨hmd, hb⟩ hfree
      have hprev : (u && m.pj j == y.length && m.pj j != 0) = false := by
        cases m with
        | del => exact hlast rfl
        | pair => simp only [Move.ok, Move.pj] at hok ⊢; simp; intro _ h; omega
        | ins => simp only [Move.ok, Move.pj] at hok ⊢; simp; intro _ h; omega
      have hfull := hfull hprev
      subst hfull
      obtain ⟨x1, y1, hx, hy, hsc⟩ := wstep_script k x y lc u m i j hok hi hj hlast
      refine ⟨i, Nat.le_refl _, fun _ => rfl, ?_⟩
      rw [hx, hy]; exact hs.append hsc

/-! ### Structure of the trace -/

/-- Operations that consume `x` and produce `y`, whatever the words are. -/
inductive Align : List Op → List Str → List Str → Prop
  | nil : Align [] [] []
  | hit {o x y} (a b : Str) : Align o x y → Align (.hit :: o) (a :: x) (b :: y)
  | subst {o x y} (a b : Str) : Align o x y → Align (.subst :: o) (a :: x) (b :: y)
  | ins {o x y} (b : Str) : Align o x y → Align (.ins :: o) x (b :: y)
  | del {o x y} (a : Str) : Align o x y → Align (.del :: o) (a :: x) y

theorem Align.append {o o' : List Op} {x y x' y' : List Str} (h : Align o x y)
    (h' : Align o' x' y') : Align (o ++ o') (x ++ x') (y ++ y') := by
  induction h with
  | nil => exact h'
  | hit a b _ ih => exact .hit a b ih
  | subst a b _ ih => exact .subst a b ih
  | ins b _ ih => exact .ins b ih
  | del a _ ih => exact .del a ih

/-- The recorded operations, in order. -/
def recorded (l : List (Op × Score × Nat × Nat)) : List Op := ((l.map Prod.fst).filter (· != .prefDel)).reverse

def recOp : Op → List Op
  | .prefDel => []
  | o => [o]

theorem recorded_cons (o : Op) (r : Score × Nat × Nat) (l : List (Op × Score × Nat × Nat)) :
    recorded ((o, r) :: l) = recorded l ++ recOp o := by
  unfold recorded
  rw [List.map_cons, List.filter_cons]
  cases o <;> simp [recOp]

theorem gW_pairOp (k : Costs) (x y : List Str) (lc u : Bool) (i j : Nat) :
    (gW k x y lc u).pairOp i j = .hit ∨ (gW k x y lc u).pairOp i j = .subst := by
  simp only [gW]; split <;> simp

theorem gW_delOp (k : Costs) (x y : List Str) (lc u : Bool) (i j : Nat) (h0 : 0 < i) (hi : i ≤ x.length)
    (hk : ∀ a ∈ x, wordDelCost k a ≠ 0) :
    (gW k x y lc u).delOp i j = if (u && j == y.length && j != 0) = true then .prefDel else .del := by
  have hc : wordDelCost k (x[i - 1]'(by omega)) ≠ 0 := hk _ (List.getElem_mem _)
  simp only [gW, getElem?_of_le h0 hi, Option.getD_some]
  by_cases h : (u && j == y.length && j != 0) = true
  · have hj0 : j ≠ 0 := by simp at h; exact h.2
    simp [h, hj0]
  · simp only [h, Bool.false_eq_true, if_false, hc, and_false]

/-- Before the last column the recorded operations align the prefixes. -/
theorem trace_align (k : Costs) (x y : List Str) (lc u : Bool) (hk : ∀ a ∈ x, wordDelCost k a ≠ 0) (i j : Nat) :
    i ≤ x.length → j ≤ y.length → (u && j == y.length && j != 0) = false →
      Align (recorded ((gW k x y lc u).tr i j)) (x.take i) (y.take j) := by
  induction i, j using (gW k x y lc u).tr_induct with
  | zero => intro _ _ _; rw [Grid.tr_zero]; exact .nil
  | step i j h ih =>
    intro hi hj hcol
    have hok := (gW k x y lc u).mv_ok i j h
    have hdec := Move.dec hok
    rw [Grid.tr_cons _ h, recorded_cons]
    generalize hm : (gW k x y lc u).mv i j = m at *
    have hprev : (u && m.pj j == y.length && m.pj j != 0) = false := by
      cases m with
      | del => exact hcol
      | pair => simp only [Move.ok, Move.pj] at hok ⊢; simp; intro _ h; omega
      | ins => simp only [Move.ok, Move.pj] at hok ⊢; simp; intro _ h; omega
    have ih := ih (Nat.le_trans hdec.2.1 hi) (Nat.le_trans hdec.2.2 hj) hprev
    cases m with
    | pair =>
      simp only [Move.ok, Move.pi, Move.pj, Grid.op] at hok ih ⊢
      rw [take_snoc hok.1 hi, take_snoc hok.2 hj]
      refine ih.append ?_
      rcases gW_pairOp k x y lc u i j with h | h
      · rw [h]; exact .hit _ _ .nil
      · rw [h]; exact .subst _ _ .nil
    | del =>
      simp only [Move.ok, Move.pi, Move.pj, Grid.op] at hok ih ⊢
      rw [gW_delOp k x y lc u i j hok hi hk, hcol, take_snoc hok hi]
      have := ih.append (Align.del (x[i - 1]'(by omega)) .nil)
      rwa [List.append_nil] at this
    | ins =>
      simp only [Move.ok, Move.pi, Move.pj, Grid.op] at hok ih ⊢
      rw [take_snoc hok hj]
      have := ih.append (Align.ins (y[j - 1]'(by omega)) .nil)
      rwa [List.append_nil] at this

/-- Character-level operations are not touched before the last column. -/
theorem charOps_before (k : Costs) (x y : List Str) (lc u : Bool) (acc : List Op) (i j : Nat) :
    j < y.length → i ≤ x.length → charLevelOps k x y lc ((gW k x y lc u).tr i j) acc = some acc := by
  induction i, j using (gW k x y lc u).tr_induct with
  | zero => intro _ _; rw [Grid.tr_zero]; rfl
  | step i j h ih =>
    intro hj hi
    have hok := (gW k x y lc u).mv_ok i j h
    have hdec := Move.dec hok
    rw [Grid.tr_cons _ h]
    generalize hm : (gW k x y lc u).mv i j = m at *
    rw [charLevelOps, if_neg, ih (by omega) (by omega)]
    simp only
    intro hc
    simp only [Bool.and_eq_true, beq_iff_eq] at hc
    cases m with
    | pair => simp only [Move.ok, Move.pj] at hok hc; omega
    | ins => simp [Grid.op] at hc
    | del =>
      simp only [Grid.op, gW] at hc
      have h2 := hc.2
      have : ∀ (p : Prop) [Decidable p], (if p then Op.prefDel else Op.del) ≠ Op.hit := by
        intro p _; split <;> simp
      exact this _ h2

/-- How a trace-back from the last column looks like. -/
structure LastCol (k : Costs) (x y : List Str) (lc : Bool) (acc : List Op) (i : Nat)
    (ops : List Op) (co : Option (List Op)) : Prop where
  ex : ∃ (rest : List Op) (last : Op) (nd i1 : Nat),
    ops = rest ++ last :: List.replicate nd .del ∧ i1 ≤ i ∧
    Align rest (x.take i1) (y.take (y.length - 1)) ∧
    ((last = .ins ∧ co = some acc) ∨ (last = .subst ∧ co = some acc ∧ i1 < i) ∨
     (last = .hit ∧ i1 < i ∧ (lc = true → co = some acc) ∧
      (lc = false → ∃ a b, x[i1]? = some a ∧ y.getLast? = some b ∧ co = (strPrefixOps k a b).map Prod.snd)))

theorem trace_lastCol (k : Costs) (x y : List Str) (lc u : Bool) (hk : ∀ a ∈ x, wordDelCost k a ≠ 0)
    (acc : List Op) (hy : 0 < y.length) (i : Nat) (hi : i ≤ x.length) :
    LastCol k x y lc acc i (recorded ((gW k x y lc u).tr i y.length))
      (charLevelOps k x y lc ((gW k x y lc u).tr i y.length) acc) := by
  induction i with
  | zero =>
    have h : (0 : Nat) > 0 ∨ y.length > 0 := Or.inr hy
    have hm : (gW k x y lc u).mv 0 y.length = .ins := rfl
    rw [Grid.tr_cons _ h, hm]
    simp only [Move.pi, Move.pj, Grid.op]
    refine ⟨_, .ins, 0, 0, ?_, Nat.le_refl _, trace_align k x y lc u hk 0 (y.length - 1) (by omega) (by omega) (by simp; omega), ?_⟩
    · rw [recorded_cons]; rfl
    · left
      refine ⟨rfl, ?_⟩
      rw [charLevelOps, if_neg (by simp), charOps_before _ _ _ _ _ _ _ _ (by omega) (by omega)]
  | succ i ih =>
    have h : i + 1 > 0 ∨ y.length > 0 := Or.inr hy
    have hok := (gW k x y lc u).mv_ok (i + 1) y.length h
    rw [Grid.tr_cons _ h]
    have hcol : (u && y.length - 1 == y.length && y.length - 1 != 0) = false := by simp; omega
    generalize hm : (gW k x y lc u).mv (i + 1) y.length = m at *
    cases m with
    | ins =>
      simp only [Move.pi, Move.pj, Grid.op]
      refine ⟨_, .ins, 0, i + 1, ?_, Nat.le_refl _, trace_align k x y lc u hk (i + 1) (y.length - 1) (by omega) (by omega) hcol, ?_⟩
      · rw [recorded_cons]; rfl
      · left
        refine ⟨rfl, ?_⟩
        rw [charLevelOps, if_neg (by simp), charOps_before _ _ _ _ _ _ _ _ (by omega) (by omega)]
    | pair =>
      simp only [Move.pi, Move.pj, Grid.op, Nat.add_sub_cancel]
      have hal := trace_align k x y lc u hk i (y.length - 1) (by omega) (by omega) hcol
      rcases gW_pairOp k x y lc u (i + 1) y.length with hp | hp
      · refine ⟨_, .hit, 0, i, ?_, by omega, hal, ?_⟩
        · rw [recorded_cons, hp]; rfl
        · right; right
          refine ⟨rfl, by omega, ?_, ?_⟩
          · intro hlc
            rw [charLevelOps, if_neg (by simp [hlc]), charOps_before _ _ _ _ _ _ _ _ (by omega) (by omega)]
          · intro hlc
            obtain ⟨b, hb⟩ : ∃ b, y.getLast? = some b := by
              cases hl : y.getLast? with
              | none => simp [List.getLast?_eq_none_iff] at hl; simp [hl] at hy
              | some b => exact ⟨b, rfl⟩
            have hxi : x[i]? = some (x[i]'(by omega)) := List.getElem?_eq_getElem _
            refine ⟨x[i]'(by omega), b, hxi, hb, ?_⟩
            rw [charLevelOps, if_pos (by rw [hp, hlc]; simp; omega)]
            simp only [hxi, hb]
            cases hs : strPrefixOps k (x[i]'(by omega)) b with
            | none => rfl
            | some r => simp only [charOps_before k x y lc u r.2 i (y.length - 1) (by omega) (by omega)]; rfl
      · refine ⟨_, .subst, 0, i, ?_, by omega, hal, ?_⟩
        · rw [recorded_cons, hp]; rfl
        · right; left
          refine ⟨rfl, ?_, by omega⟩
          rw [charLevelOps, if_neg (by simp [hp]), charOps_before _ _ _ _ _ _ _ _ (by omega) (by omega)]
    | del =>
      simp only [Move.pi, Move.pj, Grid.op, Nat.add_sub_cancel]
      obtain ⟨⟨rest, last, nd, i1, hops, hi1, hal, hlast⟩⟩ := ih (by omega)
      have hcl : charLevelOps k x y lc (((gW k x y lc u).delOp (i + 1) y.length,
          (gW k x y lc u).cost Move.del (i + 1) y.length, i, y.length) :: (gW k x y lc u).tr i y.length) acc
          = charLevelOps k x y lc ((gW k x y lc u).tr i y.length) acc := by
        rw [charLevelOps, if_neg]
        simp
      rw [hcl, recorded_cons, hops, gW_delOp k x y lc u (i + 1) y.length (by omega) hi hk]
      refine ⟨rest, last, if (u && y.length == y.length && y.length != 0) = true then nd else nd + 1, i1, ?_, by omega, hal, ?_⟩
      · split
        · simp [recOp]
        · simp [recOp, List.replicate_succ']
      · rcases hlast with h | ⟨h1, h2, h3⟩ | ⟨h1, h2, h3⟩
        · exact Or.inl h
        · exact Or.inr (Or.inl ⟨h1, h2, by omega⟩)
        · exact Or.inr (Or.inr ⟨h1, by omega, h3⟩)

/-- Number of words of the sentence that the operations consume. -/
def consumed (o : List Op) : Nat := (o.filter (· != .ins)).length

theorem consumed_append (o o' : List Op) : consumed (o ++ o') = consumed o + consumed o' := by
  simp [consumed]

theorem Align.consumed_eq {o : List Op} {x y : List Str} (h : Align o x y) : consumed o = x.length := by
  induction h with
  | nil => rfl
  | hit a b _ ih => simpa [consumed] using ih
  | subst a b _ ih => simpa [consumed] using ih
  | ins b _ ih => simpa [consumed] using ih
  | del a _ ih => simpa [consumed] using ih

theorem consumed_dels (n : Nat) : consumed (List.replicate n .del) = n := by simp [consumed]

/-- The words consumed by the recorded operations are turned into the prefix at the cost of the
distance. -/
theorem trace_consumed (k : Costs) (x y : List Str) (lc u : Bool) (hk : ∀ a ∈ x, wordDelCost k a ≠ 0) (i j : Nat) :
    i ≤ x.length → j ≤ y.length →
    consumed (recorded ((gW k x y lc u).tr i j)) ≤ i ∧
      ((u && j == y.length && j != 0) = false → consumed (recorded ((gW k x y lc u).tr i j)) = i) ∧
      WScript k (x.take (consumed (recorded ((gW k x y lc u).tr i j)))) ((mark lc y).take j)
        ((gW k x y lc u).D i j) := by
  induction i, j using (gW k x y lc u).tr_induct with
  | zero =>
    intro _ _
    rw [Grid.tr_zero]
    refine ⟨Nat.le_refl _, fun _ => rfl, ?_⟩
    rw [Grid.D]; exact .nil
  | step i j h ih =>
    intro hi hj
    have hok := (gW k x y lc u).mv_ok i j h
    have hdec := Move.dec hok
    obtain ⟨hi', hfull, hs⟩ := ih (Nat.le_trans hdec.2.1 hi) (Nat.le_trans hdec.2.2 hj)
    have hD := (gW k x y lc u).D_eq_mv i j h
    rw [hD, Grid.tr_cons _ h, recorded_cons, consumed_append]
    generalize hm : (gW k x y lc u).mv i j = m at *
    by_cases hfree : m = .del ∧ (u && j == y.length && j != 0) = true
    · obtain ⟨rfl, hfree⟩ := hfree
      simp only [Move.pi, Move.pj, Grid.op] at hs hi' ⊢
      have hz : consumed (recOp ((gW k x y lc u).delOp i j)) = 0 := by
        rw [gW_delOp k x y lc u i j hok hi hk, if_pos hfree]; rfl
      rw [hz, Nat.add_zero]
      refine ⟨by omega, fun h => by rw [h] at hfree; simp at hfree, ?_⟩
      have : (gW k x y lc u).cost .del i j = 0 := by simp only [Grid.cost, gW, hfree, if_true]
      rw [this, Rat.add_zero]
      exact hs
    · have hlast : m = .del → (u && j == y.length && j != 0) = false := by
        intro hmd
        cases hb : (u && j == y.length && j != 0) with
        | false => rfl
        | true => exact absurd ⟨hmd, hb⟩ hfree
      have hprev : (u && m.pj j == y.length && m.pj j != 0) = false := by
        cases m with
        | del => exact hlast rfl
        | pair => simp only [Move.ok, Move.pj] at hok ⊢; simp; intro _ h; omega
        | ins => simp only [Move.ok, Move.pj] at hok ⊢; simp; intro _ h; omega
      have hfull := hfull hprev
      rw [hfull] at hs hi' ⊢
      have hc : m.pi i + consumed (recOp ((gW k x y lc u).op m i j)) = i := by
        cases m with
        | pair =>
          simp only [Move.ok, Move.pi, Grid.op] at hok ⊢
          rcases gW_pairOp k x y lc u i j with h | h <;> rw [h] <;> simp [recOp, consumed] <;> omega
        | del =>
          simp only [Move.ok, Move.pi, Grid.op] at hok ⊢
          rw [gW_delOp k x y lc u i j hok hi hk, hlast rfl]
          simp [recOp, consumed]; omega
        | ins => simp [Move.pi, Grid.op, recOp, consumed]
      rw [hc]
      obtain ⟨x1, y1, hx, hy, hsc⟩ := wstep_script k x y lc u m i j hok hi hj hlast
      refine ⟨Nat.le_refl _, fun _ => rfl, ?_⟩
      rw [hx, hy]; exact hs.append hsc

end Thot.EditDist
