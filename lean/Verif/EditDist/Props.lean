import Verif.EditDist.Lemmas

namespace Thot.EditDist

variable {α : Type} [DecidableEq α]

/-! ## C30: the edit distance is optimal -/

/-- **C30.** For all sequences and all costs, `calculateEditDist` is defined (no access outside the
matrix or the sequences), its value is the cost of some edit script from `x` to `y`, and no script is
cheaper. -/
theorem C30_distance_is_minimum (k : Costs) (x y : List α) :
    ∃ d, calculateEditDist k x y = some d ∧ Script k x y d ∧ ∀ c, Script k x y c → d ≤ c := by
  obtain ⟨dm, h, -⟩ := editDistDm_ok k x y
  refine ⟨_, by rw [calculateEditDist, h]; rfl, ?_, ?_⟩
  · have := (trace_plain k x y x.length y.length (Nat.le_refl _) (Nat.le_refl _)).1
    simpa using this
  · intro c hc
    have := D_le_script hc false [] [] x y rfl rfl (by simp)
    rw [gPlain_D]
    have h0 : (gStr k x y false).D ([] : List α).length ([] : List α).length = 0 := by
      simp only [List.length_nil]; rw [Grid.D]
    rw [h0, Rat.zero_add] at this
    exact this

/-- The value returned, if some. -/
theorem dist_unique {k : Costs} {x y : List α} {d : Score} :
    calculateEditDist k x y = some d ↔ Script k x y d ∧ ∀ c, Script k x y c → d ≤ c := by
  obtain ⟨d', h, hs, hm⟩ := C30_distance_is_minimum k x y
  constructor
  · intro h'
    rw [h] at h'
    cases h'
    exact ⟨hs, hm⟩
  · rintro ⟨h1, h2⟩
    rw [h]
    have := hm d h1
    have := h2 d' hs
    congr 1
    exact Rat.le_antisymm (by assumption) (by assumption)

omit [DecidableEq α] in
theorem Script.nonneg {k : Costs} {x y : List α} {c : Score} (h : Script k x y c) (h1 : 0 ≤ k.hit)
    (h2 : 0 ≤ k.ins) (h3 : 0 ≤ k.subst) (h4 : 0 ≤ k.del) : 0 ≤ c := by
  induction h with
  | nil => exact Rat.le_refl
  | _ => grind

omit [DecidableEq α] in
theorem Script.refl (k : Costs) (hk : k.hit = 0) (x : List α) : Script k x x 0 := by
  induction x with
  | nil => exact .nil
  | cons a x ih =>
    have := Script.hit a ih
    rwa [hk, Rat.zero_add] at this

omit [DecidableEq α] in
theorem Script.eq_of_zero {k : Costs} {x y : List α} {c : Score} (h : Script k x y c) (h1 : 0 ≤ k.hit)
    (h2 : 0 < k.ins) (h3 : 0 < k.subst) (h4 : 0 < k.del) (hc : c ≤ 0) : x = y := by
  induction h with
  | nil => rfl
  | hit a h ih =>
    have := h.nonneg h1 (by grind) (by grind) (by grind)
    rw [ih (by grind)]
  | subst a b _ h ih => have := h.nonneg h1 (by grind) (by grind) (by grind); grind
  | ins a h ih => have := h.nonneg h1 (by grind) (by grind) (by grind); grind
  | del a h ih => have := h.nonneg h1 (by grind) (by grind) (by grind); grind

/-- **C30.** With a free hit and positive costs for the other operations the distance is zero exactly
for equal sequences. -/
theorem C30_zero_iff_eq (k : Costs) (h1 : k.hit = 0) (h2 : 0 < k.ins) (h3 : 0 < k.subst)
    (h4 : 0 < k.del) (x y : List α) : calculateEditDist k x y = some 0 ↔ x = y := by
  rw [dist_unique]
  constructor
  · intro h
    exact h.1.eq_of_zero (by rw [h1]; exact Rat.le_refl) h2 h3 h4 Rat.le_refl
  · rintro rfl
    refine ⟨.refl k h1 x, fun c hc => hc.nonneg (by rw [h1]; exact Rat.le_refl) ?_ ?_ ?_⟩ <;> grind

/-- **C30.** The same for the costs set by the constructor. -/
theorem C30_default_zero_iff_eq (x y : List α) : calculateEditDist .default x y = some 0 ↔ x = y :=
  C30_zero_iff_eq _ rfl (by decide) (by decide) (by decide) x y

omit [DecidableEq α] in
theorem Script.symm {k : Costs} (hk : k.ins = k.del) {x y : List α} {c : Score} (h : Script k x y c) :
    Script k y x c := by
  induction h with
  | nil => exact .nil
  | hit a _ ih => exact .hit a ih
  | subst a b hab _ ih => exact .subst b a (Ne.symm hab) ih
  | ins b _ ih => rw [hk]; exact .del b ih
  | del a _ ih => rw [← hk]; exact .ins a ih

/-- **C30.** With equal insertion and deletion costs the distance is symmetric. -/
theorem C30_symmetric (k : Costs) (hk : k.ins = k.del) (x y : List α) :
    calculateEditDist k x y = calculateEditDist k y x := by
  obtain ⟨d, h, hs, hm⟩ := C30_distance_is_minimum k x y
  rw [h]
  exact (dist_unique.2 ⟨hs.symm hk, fun c hc => hm c (hc.symm hk)⟩).symm

/-- Composition of scripts (for a free hit and non-negative costs). -/
theorem Script.comp {k : Costs} (h1 : k.hit = 0) (h2 : 0 ≤ k.ins) (h3 : 0 ≤ k.subst) (h4 : 0 ≤ k.del)
    {x y z : List α} {c d : Score} (hxy : Script k x y c) (hyz : Script k y z d) :
    ∃ e, Script k x z e ∧ e ≤ c + d := by
  induction hyz generalizing x c with
  | nil => exact ⟨c, hxy, by grind⟩
  | ins b h ih =>
    obtain ⟨e, he, hle⟩ := ih hxy
    exact ⟨_, .ins b he, by grind⟩
  | @hit y z d b h ih =>
    generalize hw : b :: y = w at hxy
    induction hxy generalizing y with
    | nil => cases hw
    | hit a hx _ =>
      cases hw
      obtain ⟨e, he, hle⟩ := ih hx
      exact ⟨_, .hit _ he, by grind⟩
    | subst a b' hab hx _ =>
      cases hw
      obtain ⟨e, he, hle⟩ := ih hx
      exact ⟨_, .subst _ _ hab he, by grind⟩
    | ins b' hx _ =>
      cases hw
      obtain ⟨e, he, hle⟩ := ih hx
      exact ⟨_, .ins _ he, by grind⟩
    | del a hx ihx =>
      obtain ⟨e, he, hle⟩ := ihx h ih hw
      exact ⟨_, .del a he, by grind⟩
  | @subst y z d b b2 hb h ih =>
    generalize hw : b :: y = w at hxy
    induction hxy generalizing y with
    | nil => cases hw
    | hit a hx _ =>
      cases hw
      obtain ⟨e, he, hle⟩ := ih hx
      exact ⟨_, .subst _ _ hb he, by grind⟩
    | subst a b' hab hx _ =>
      cases hw
      obtain ⟨e, he, hle⟩ := ih hx
      by_cases heq : a = b2
      · subst heq
        exact ⟨_, .hit _ he, by grind⟩
      · exact ⟨_, .subst a b2 heq he, by grind⟩
    | ins b' hx _ =>
      cases hw
      obtain ⟨e, he, hle⟩ := ih hx
      exact ⟨_, .ins _ he, by grind⟩
    | del a hx ihx =>
      obtain ⟨e, he, hle⟩ := ihx h ih hw
      exact ⟨_, .del a he, by grind⟩
  | @del y z d b h ih =>
    generalize hw : b :: y = w at hxy
    induction hxy generalizing y with
    | nil => cases hw
    | hit a hx _ =>
      cases hw
      obtain ⟨e, he, hle⟩ := ih hx
      exact ⟨_, .del _ he, by grind⟩
    | subst a b' hab hx _ =>
      cases hw
      obtain ⟨e, he, hle⟩ := ih hx
      exact ⟨_, .del a he, by grind⟩
    | ins b' hx _ =>
      cases hw
      obtain ⟨e, he, hle⟩ := ih hx
      exact ⟨_, he, by grind⟩
    | del a hx ihx =>
      obtain ⟨e, he, hle⟩ := ihx h ih hw
      exact ⟨_, .del a he, by grind⟩

/-- **C30.** With a free hit and non-negative costs the distance satisfies the triangle inequality. -/
theorem C30_triangle (k : Costs) (h1 : k.hit = 0) (h2 : 0 ≤ k.ins) (h3 : 0 ≤ k.subst) (h4 : 0 ≤ k.del)
    (x y z : List α) {a b c : Score} (hxy : calculateEditDist k x y = some a)
    (hyz : calculateEditDist k y z = some b) (hxz : calculateEditDist k x z = some c) : c ≤ a + b := by
  obtain ⟨e, he, hle⟩ := (dist_unique.1 hxy).1.comp h1 h2 h3 h4 (dist_unique.1 hyz).1
  exact Rat.le_trans ((dist_unique.1 hxz).2 e he) hle

example : calculateEditDist Costs.default "kitten".toList "sitting".toList = some 3 := by decide +kernel
example : calculateEditDist ⟨0, 2, 5, 2⟩ [1, 2, 3] [1, 4, 3] = some 4 := by decide +kernel

/-! ## C31: the operations are consistent with the distance -/

theorem foldl_addOpCost (k : Costs) (l : List (Op × Score)) (h : ∀ e ∈ l, e.2 = opCost k e.1)
    (c : Score × Score × Score × Score) :
    l.foldl addOpCost c = (c.1 + k.hit * (countOps (l.map Prod.fst)).h,
      c.2.1 + k.ins * (countOps (l.map Prod.fst)).i, c.2.2.1 + k.subst * (countOps (l.map Prod.fst)).s,
      c.2.2.2 + k.del * (countOps (l.map Prod.fst)).d) := by
  induction l generalizing c with
  | nil => simp [countOps, Rat.mul_zero, Rat.add_zero]
  | cons e l ih =>
    rw [List.foldl_cons, ih (fun e he => h e (List.mem_cons_of_mem _ he)), List.map_cons, countOps_cons]
    have he := h e List.mem_cons_self
    obtain ⟨o, v⟩ := e
    simp only at he
    subst he
    cases o <;> simp only [addOpCost, countOp, opCost, Prod.mk.injEq] <;> push_cast <;>
      refine ⟨?_, ?_, ?_, ?_⟩ <;> grind

/-- **C31.** The trace-back always terminates without leaving the matrix, and the list of operations
`obtainOperations` returns after a distance calculation turns `x` into `y`; the cost attached to each
operation is the configured one and the costs add up to the distance. -/
theorem C31_operations (k : Costs) (x y : List α) :
    ∃ dm d l, calculateEditDistDm k x y = some (dm, d) ∧
      obtainOperations k x y dm x.length y.length = some l ∧
      Runs (l.map Prod.fst) x y ∧ (∀ e ∈ l, e.2 = opCost k e.1) ∧
      (l.map Prod.snd).foldr (· + ·) 0 = d := by
  obtain ⟨dm, h, hd⟩ := editDistDm_ok k x y
  obtain ⟨-, hr, hc⟩ := trace_plain k x y x.length y.length (Nat.le_refl _) (Nat.le_refl _)
  refine ⟨dm, _, _, h, obtainOperations_ok k x y hd, ?_, ?_, ?_⟩
  · simpa [List.map_reverse, Function.comp_def] using hr
  · intro e he
    simp only [List.mem_reverse, List.mem_map] at he
    obtain ⟨e', he', rfl⟩ := he
    exact hc e' he'
  · rw [List.map_reverse, List.map_map, ← tr_sum k x y]
    have hrev : ∀ l : List Score, l.reverse.foldr (· + ·) 0 = l.foldr (· + ·) 0 := by
      intro l
      induction l with
      | nil => rfl
      | cons a l ih => rw [List.reverse_cons, List.foldr_append, foldr_add_acc, ih, List.foldr_cons, List.foldr_cons,
          List.foldr_nil]; grind
    exact hrev _

/-- **C31.** `calculateEditDistOps` returns the distance of `calculateEditDist` and counts with
`hitCost*h+insCost*i+substCost*s+delCost*d` equal to it, `h+s+d=|x|` and `h+s+i=|y|`; the cost per
type it reports is the number of operations of the type times its cost. -/
theorem C31_counts (k : Costs) (x y : List α) :
    ∃ d c, calculateEditDistOps k x y =
        some (d, c, k.hit * c.h, k.ins * c.i, k.subst * c.s, k.del * c.d) ∧
      calculateEditDist k x y = some d ∧
      k.hit * c.h + k.ins * c.i + k.subst * c.s + k.del * c.d = d ∧
      c.h + c.s + c.d = x.length ∧ c.h + c.s + c.i = y.length := by
  obtain ⟨dm, d, l, h1, h2, h3, h4, h5⟩ := C31_operations k x y
  refine ⟨d, countOps (l.map Prod.fst), ?_, ?_, ?_, h3.counts.1, h3.counts.2⟩
  · simp only [calculateEditDistOps, h1, h2, Option.bind_eq_bind, Option.bind_some, opsAndCostsPerType,
      foldl_addOpCost k l h4, Rat.zero_add]
  · rw [calculateEditDist, h1]; rfl
  · rw [← sumCost_eq k _, ← h5, sumCost, List.map_map]
    congr 1
    apply List.map_congr_left
    intro e he
    exact (h4 e he).symm

example : calculateEditDistOps Costs.default "kitten".toList "sitting".toList =
    some (3, ⟨4, 1, 2, 0⟩, 0, 1, 2, 0) := by decide +kernel

/-! ## C32: distance to an incomplete prefix -/

/-- **C32, full statement** (false of the code, see below): the distance to the incomplete prefix `y`
is the least cost of a script that turns some prefix of `x` into `y`. -/
def C32_full : Prop :=
  ∀ (k : Costs), 0 ≤ k.hit → 0 ≤ k.ins → 0 ≤ k.subst → 0 ≤ k.del → ∀ x y : Str,
    ∃ d, strPrefix k x y = some d ∧ (∃ x', x' <+: x ∧ Script k x' y d) ∧
      ∀ x' c, x' <+: x → Script k x' y c → d ≤ c

theorem D_pref_le (k : Costs) (hk : 0 ≤ k.del) (x y : Str) (hy : y ≠ []) (i : Nat) (hi : i ≤ x.length) :
    (gStr k x y true).D x.length y.length ≤ (gStr k x y true).D i y.length := by
  obtain ⟨n, hn⟩ : ∃ n, x.length = i + n := ⟨x.length - i, by omega⟩
  rw [hn]
  clear hn hi
  induction n with
  | zero => exact Rat.le_refl
  | succ n ih =>
    have h2 := (gStr k x y true).D_le .del (i + n + 1) y.length (by simp [Move.ok])
    have h3 : (gStr k x y true).del (i + n + 1) y.length = 0 := by
      have : y.length ≠ 0 := by simpa using hy
      simp [gStr, this]
    simp only [Move.pi, Move.pj, Nat.add_sub_cancel, Grid.cost, h3] at h2
    have : i + (n + 1) = i + n + 1 := rfl
    rw [this]
    grind

theorem D_congr_take (k : Costs) (x y : Str) (u : Bool) (m : Nat) (hm : m ≤ x.length) (i j : Nat) (hi : i ≤ m) :
    (gStr k (x.take m) y u).D i j = (gStr k x y u).D i j := by
  induction i generalizing j with
  | zero => induction j with
    | zero => rw [Grid.D, Grid.D]
    | succ j ih => rw [Grid.D, Grid.D, ih]; rfl
  | succ i ih =>
    have hp : ∀ j, (gStr k (x.take m) y u).pair (i + 1) j = (gStr k x y u).pair (i + 1) j := by
      intro j
      have : (x.take m)[i]? = x[i]? := by rw [List.getElem?_take]; simp; omega
      simp [gStr, this]
    induction j with
    | zero => rw [Grid.D, Grid.D, ih _ (by omega)]; rfl
    | succ j ihj => rw [Grid.D, Grid.D, ih _ (by omega), ih _ (by omega), ihj, hp]; rfl

/-- **C32 (partial).** For a non-empty prefix `y` and a non-negative deletion cost, the distance is
the least cost of a script that turns some prefix of `x` into `y`.  Missing: the empty prefix, for
which the code charges the deletion of the whole of `x` (`C32_counterexample`). -/
theorem C32_prefix_distance_partial (k : Costs) (hk : 0 ≤ k.del) (x y : Str) (hy : y ≠ []) :
    ∃ d, strPrefix k x y = some d ∧ (∃ x', x' <+: x ∧ Script k x' y d) ∧
      ∀ x' c, x' <+: x → Script k x' y c → d ≤ c := by
  refine ⟨_, by rw [strPrefix, strPrefixOps, strPrefixOpsAux_ok]; rfl, ?_, ?_⟩
  · obtain ⟨i', -, -, hs, -⟩ := trace_script k x y true x.length y.length (Nat.le_refl _) (Nat.le_refl _)
    refine ⟨x.take i', List.take_prefix _ _, ?_⟩
    simpa using hs
  · intro x' c hx' hc
    have hl : x'.length ≤ x.length := hx'.length_le
    have hx'eq : x' = x.take x'.length := List.prefix_iff_eq_take.1 hx'
    have h1 := D_le_script hc true [] [] x' y rfl rfl (fun _ => hk)
    have h0 : (gStr k x' y true).D ([] : Str).length ([] : Str).length = 0 := by
      simp only [List.length_nil]; rw [Grid.D]
    rw [h0, Rat.zero_add] at h1
    have h2 := D_congr_take k x y true x'.length hl x'.length y.length (Nat.le_refl _)
    rw [← hx'eq] at h2
    rw [h2] at h1
    exact Rat.le_trans (D_pref_le k hk x y hy x'.length hl) h1

/-- **C32.** For the empty prefix the code returns the cost of deleting all of `x`. -/
theorem C32_empty_prefix (k : Costs) (x : Str) : strPrefix k x [] = some (k.del * x.length) := by
  rw [strPrefix, strPrefixOps, strPrefixOpsAux_ok]
  simp only [Option.map_some, List.length_nil, Option.some.injEq]
  generalize x.length = n
  induction n with
  | zero => rw [Grid.D]; simp [Rat.mul_zero]
  | succ n ih =>
    rw [Grid.D, ih]
    simp only [gStr]
    push_cast
    simp
    grind

/-- The full statement fails: with the default costs the distance of `a` to the empty prefix is 1,
although the empty prefix of `a` costs nothing. -/
theorem C32_counterexample : ¬ C32_full := by
  intro h
  obtain ⟨d, hd, -, hm⟩ := h .default (by decide) (by decide) (by decide) (by decide) ['a'] []
  rw [C32_empty_prefix] at hd
  have : d = 1 := by
    simp only [Option.some.injEq] at hd
    rw [← hd]
    decide +kernel
  have h0 := hm [] 0 (List.nil_prefix) .nil
  rw [this] at h0
  exact absurd h0 (by decide)

/-- **C32.** The operations returned with the prefix distance turn some prefix of `x` into `y`, for a
non-empty `y` and a non-zero deletion cost, and their total cost is the distance. -/
theorem C32_operations_partial (k : Costs) (hk : k.del ≠ 0) (x y : Str) :
    ∃ d ops x', strPrefixOps k x y = some (d, ops) ∧ x' <+: x ∧ Runs ops x' y ∧
      d = k.hit * (countOps ops).h + k.ins * (countOps ops).i + k.subst * (countOps ops).s +
        k.del * (countOps ops).d := by
  obtain ⟨i', -, -, -, hr⟩ := trace_script k x y true x.length y.length (Nat.le_refl _) (Nat.le_refl _)
  refine ⟨_, _, x.take i', strPrefixOpsAux_ok k x y true, List.take_prefix _ _, ?_, ?_⟩
  · simpa using hr hk
  · rw [← sumCost_eq k _, sumCost_reverse, sumCost_tr]

/-- **C32.** Without free deletions the prefix variant is the plain distance. -/
theorem C32_noPrefDel (k : Costs) (x y : Str) :
    (strPrefixOpsNoPrefDel k x y).map Prod.fst = calculateEditDist k x y := by
  obtain ⟨dm, h, -⟩ := editDistDm_ok k x y
  rw [strPrefixOpsNoPrefDel, strPrefixOpsAux_ok, calculateEditDist, h, gPlain_D]
  rfl

example : strPrefixOps Costs.default "hello".toList "hxl".toList =
    some (1, [.hit, .subst, .hit]) := by decide +kernel

end Thot.EditDist
