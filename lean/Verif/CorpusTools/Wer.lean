import Verif.Common.AMap
/-!
Model of `/repo/utils/stack_dec/thot_calc_wer.py`, the tool that computes the word error rate.

A sentence is the list of its words (reading the lines and splitting them at blanks are not modelled). Words are elements of any type.
-/
namespace Thot.CorpusTools

variable {W : Type} [DecidableEq W]

/-- The inner loop (thot_calc_wer.py:32-41): `prev` is the part of the previous row from the current column on, `last` the last
number of the current row. -/
def werRow (c1 : W) (last : Nat) : List Nat → List W → List Nat
  | p0 :: p1 :: ps, c2 :: cs =>
    let v := min (min (p1 + 1) (last + 1)) (p0 + if c1 ≠ c2 then 1 else 0)
    v :: werRow c1 v (p1 :: ps) cs
  | _, _ => []

/-- The outer loop (thot_calc_wer.py:29-42). -/
def werRows (s2 : List W) : Nat → List Nat → List W → List Nat
  | _, prev, [] => prev
  | i, prev, c1 :: s1 => werRows s2 (i + 1) ((i + 1) :: werRow c1 (i + 1) prev s2) s1

/-- `levenshtein` when the first sentence is not the shortest (thot_calc_wer.py:21-45). -/
def werLong (s1 s2 : List W) : Nat :=
  if s2.length = 0 then s1.length else (werRows s2 0 (List.range (s2.length + 1)) s1).getLastD 0

/-- `levenshtein` (thot_calc_wer.py:16-45). -/
def lev (s1 s2 : List W) : Nat := if s1.length < s2.length then werLong s2 s1 else werLong s1 s2

/-- The loop over the files (thot_calc_wer.py:97-115): `(running_words, eddist)`; `none` is the exception raised in verbose mode by the
division by the length of an empty reference. -/
def werLoop (verbose : Bool) : Nat × Nat → List (List W × List W) → Option (Nat × Nat)
  | acc, [] => some acc
  | acc, (r, t) :: l =>
    if verbose = true ∧ r.length = 0 then none else werLoop verbose (acc.1 + r.length, acc.2 + lev r t) l

/-- The tool (thot_calc_wer.py:95-119): numerator and denominator of the rate printed; `none` is a `ZeroDivisionError`. -/
def wer (verbose : Bool) (refs hyps : List (List W)) : Option (Nat × Nat) :=
  match werLoop verbose (0, 0) (refs.zip hyps) with
  | none => none
  | some (rw, ed) => if rw = 0 then none else some (ed, rw)

/-! ### Specification -/

/-- `x` can be changed into `y` with `n` insertions, deletions and substitutions of words. -/
inductive Edits : List W → List W → Nat → Prop
  | nil : Edits [] [] 0
  | keep (c : W) {x y : List W} {n : Nat} : Edits x y n → Edits (c :: x) (c :: y) n
  | sub (c d : W) {x y : List W} {n : Nat} : Edits x y n → Edits (c :: x) (d :: y) (n + 1)
  | ins (d : W) {x y : List W} {n : Nat} : Edits x y n → Edits x (d :: y) (n + 1)
  | del (c : W) {x y : List W} {n : Nat} : Edits x y n → Edits (c :: x) y (n + 1)

/-- `n` is the smallest number of edits. -/
def Dist (x y : List W) (n : Nat) : Prop := Edits x y n ∧ ∀ k, Edits x y k → n ≤ k

/-! ### Proofs -/

omit [DecidableEq W] in
theorem Edits.append {x y x' y' : List W} {n n' : Nat} (h : Edits x y n) (h' : Edits x' y' n') : Edits (x ++ x') (y ++ y') (n + n') := by
  induction h with
  | nil => simpa using h'
  | keep c _ ih => exact .keep c ih
  | sub c d _ ih => rw [Nat.add_right_comm]; exact .sub c d ih
  | ins d _ ih => rw [Nat.add_right_comm]; exact .ins d ih
  | del c _ ih => rw [Nat.add_right_comm]; exact .del c ih

omit [DecidableEq W] in
theorem Edits.reverse {x y : List W} {n : Nat} (h : Edits x y n) : Edits x.reverse y.reverse n := by
  induction h with
  | nil => exact .nil
  | keep c _ ih => rw [List.reverse_cons, List.reverse_cons]; exact ih.append (Edits.keep c .nil)
  | sub c d _ ih => rw [List.reverse_cons, List.reverse_cons]; exact ih.append (Edits.sub c d .nil)
  | ins d _ ih =>
    rw [List.reverse_cons]
    have := ih.append (Edits.ins d .nil)
    rwa [List.append_nil] at this
  | del c _ ih =>
    rw [List.reverse_cons]
    have := ih.append (Edits.del c .nil)
    rwa [List.append_nil] at this

omit [DecidableEq W] in
theorem Edits.symm {x y : List W} {n : Nat} (h : Edits x y n) : Edits y x n := by
  induction h with
  | nil => exact .nil
  | keep c _ ih => exact .keep c ih
  | sub c d _ ih => exact .sub d c ih
  | ins d _ ih => exact .del d ih
  | del c _ ih => exact .ins c ih

omit [DecidableEq W] in
theorem Dist.symm {x y : List W} {n : Nat} (h : Dist x y n) : Dist y x n := ⟨h.1.symm, fun k hk => h.2 k hk.symm⟩

omit [DecidableEq W] in
theorem Dist.reverse {x y : List W} {n : Nat} (h : Dist x y n) : Dist x.reverse y.reverse n :=
  ⟨h.1.reverse, fun k hk => h.2 k (by have := hk.reverse; rwa [List.reverse_reverse, List.reverse_reverse] at this)⟩

/-- The distance of the reversed prefixes. -/
def ed : List W → List W → Nat
  | [], b => b.length
  | _ :: a, [] => a.length + 1
  | x :: a, y :: b => min (min (ed a (y :: b) + 1) (ed (x :: a) b + 1)) (ed a b + if x ≠ y then 1 else 0)
termination_by a b => a.length + b.length

theorem ed_nil_right (a : List W) : ed a [] = a.length := by
  cases a <;> simp [ed]

theorem ed_dist : ∀ (a b : List W), Dist a b (ed a b) := by
  intro a b
  induction h : a.length + b.length using Nat.strongRecOn generalizing a b with
  | ind s ih =>
    cases a with
    | nil =>
      rw [ed]
      constructor
      · clear ih h
        induction b with
        | nil => exact .nil
        | cons d b ih => exact .ins d ih
      · intro k hk
        clear ih h
        generalize ha : ([] : List W) = a at hk
        induction hk with
        | nil => exact Nat.zero_le _
        | keep => cases ha
        | sub => cases ha
        | ins d _ ih => have := ih ha; simp only [List.length_cons]; omega
        | del => cases ha
    | cons x a =>
      cases b with
      | nil =>
        rw [ed_nil_right]
        constructor
        · clear ih h
          generalize x :: a = l
          induction l with
          | nil => exact .nil
          | cons d b ih => exact .del d ih
        · intro k hk
          clear ih h
          generalize hb : ([] : List W) = b at hk
          generalize x :: a = l at hk
          induction hk with
          | nil => exact Nat.zero_le _
          | keep => cases hb
          | sub => cases hb
          | ins => cases hb
          | del d _ ih => have := ih hb; simp only [List.length_cons]; omega
      | cons y b =>
        simp only [List.length_cons] at h
        have i1 := ih (a.length + (b.length + 1)) (by omega) a (y :: b) (by simp)
        have i2 := ih (a.length + 1 + b.length) (by omega) (x :: a) b (by simp)
        have i3 := ih (a.length + b.length) (by omega) a b rfl
        rw [ed]
        constructor
        · rcases Nat.le_total (min (ed a (y :: b) + 1) (ed (x :: a) b + 1)) (ed a b + if x ≠ y then 1 else 0) with hm | hm
          · rw [Nat.min_eq_left hm]
            rcases Nat.le_total (ed a (y :: b) + 1) (ed (x :: a) b + 1) with hm' | hm'
            · rw [Nat.min_eq_left hm']; exact .del x i1.1
            · rw [Nat.min_eq_right hm']; exact .ins y i2.1
          · rw [Nat.min_eq_right hm]
            by_cases hxy : x = y
            · subst hxy; rw [if_neg (fun hc => hc rfl)]; exact .keep x i3.1
            · rw [if_pos hxy]; exact .sub x y i3.1
        · intro k hk
          cases hk with
          | keep c hk => have := i3.2 _ hk; simp; omega
          | sub c d hk => have := i3.2 _ hk; split <;> omega
          | ins d hk => have := i2.2 _ hk; omega
          | del c hk => have := i1.2 _ hk; omega

/-- The row of a prefix. -/
def rowOf (a : List W) (b : List W) : List W → List Nat
  | [] => [ed a b]
  | c :: r => ed a b :: rowOf a (c :: b) r

theorem rowOf_head (a b r : List W) : ∃ t, rowOf a b r = ed a b :: t := by
  cases r <;> exact ⟨_, rfl⟩

theorem werRow_eq (c1 : W) (a : List W) : ∀ (r b : List W),
    ed (c1 :: a) b :: werRow c1 (ed (c1 :: a) b) (rowOf a b r) r = rowOf (c1 :: a) b r := by
  intro r
  induction r with
  | nil => intro b; rfl
  | cons c r ih =>
    intro b
    obtain ⟨t, ht⟩ := rowOf_head a (c :: b) r
    show _ :: werRow c1 _ (ed a b :: rowOf a (c :: b) r) (c :: r) = ed (c1 :: a) b :: rowOf (c1 :: a) (c :: b) r
    rw [ht]
    show _ :: (_ :: werRow c1 _ (ed a (c :: b) :: t) r) = _
    have e : min (min (ed a (c :: b) + 1) (ed (c1 :: a) b + 1)) (ed a b + if c1 ≠ c then 1 else 0) = ed (c1 :: a) (c :: b) := by
      rw [ed]
    rw [e, ← ht, ih]

theorem rowOf_nil (s2 : List W) : rowOf ([] : List W) [] s2 = List.range (s2.length + 1) := by
  have : ∀ (r b : List W), rowOf ([] : List W) b r = (List.range (r.length + 1)).map (b.length + ·) := by
    intro r
    induction r with
    | nil => intro b; simp [rowOf, ed]
    | cons c r ih =>
      intro b
      show ed [] b :: rowOf [] (c :: b) r = _
      rw [ih, show (c :: r).length + 1 = (r.length + 1) + 1 from rfl, List.range_succ_eq_map (n := r.length + 1), List.map_cons, List.map_map, ed]
      simp only [List.length_cons, Nat.add_zero]
      congr 1
      apply List.map_congr_left
      intro k _
      show b.length + 1 + k = b.length + (k + 1)
      omega
  rw [this]
  simp

theorem werRows_eq (s2 : List W) : ∀ (s1 a : List W), werRows s2 a.length (rowOf a [] s2) s1 = rowOf (s1.reverse ++ a) [] s2 := by
  intro s1
  induction s1 with
  | nil => intro a; rfl
  | cons c s1 ih =>
    intro a
    show werRows s2 (a.length + 1) ((a.length + 1) :: werRow c (a.length + 1) (rowOf a [] s2) s2) s1 = _
    have e : a.length + 1 = ed (c :: a) ([] : List W) := by rw [ed_nil_right]; rfl
    have := werRow_eq c a s2 []
    rw [← e] at this
    rw [this]
    have := ih (c :: a)
    rw [List.length_cons] at this
    rw [this]
    simp

theorem rowOf_last (a : List W) : ∀ (r b : List W), (rowOf a b r).getLastD 0 = ed a (r.reverse ++ b) := by
  intro r
  induction r with
  | nil => intro b; rfl
  | cons c r ih =>
    intro b
    show (ed a b :: rowOf a (c :: b) r).getLastD 0 = _
    obtain ⟨t, ht⟩ := rowOf_head a (c :: b) r
    have := ih (c :: b)
    rw [ht] at this ⊢
    simp only [List.getLastD_cons] at this ⊢
    rw [this]; simp

theorem werLong_dist (s1 s2 : List W) : Dist s1 s2 (werLong s1 s2) := by
  have hd := (ed_dist s1.reverse s2.reverse).reverse
  rw [List.reverse_reverse, List.reverse_reverse] at hd
  have : werLong s1 s2 = ed s1.reverse s2.reverse := by
    unfold werLong
    split
    · rename_i h
      rw [List.length_eq_zero_iff.1 h, List.reverse_nil, ed_nil_right, List.length_reverse]
    · have := werRows_eq s2 s1 []
      rw [rowOf_nil] at this
      rw [show (0 : Nat) = ([] : List W).length from rfl, this, List.length_nil, rowOf_last]
      simp
  rw [this]; exact hd

theorem lev_dist (s1 s2 : List W) : Dist s1 s2 (lev s1 s2) := by
  unfold lev
  split
  · exact (werLong_dist s2 s1).symm
  · exact werLong_dist s1 s2

/-- The number computed for two sentences is the smallest number of insertions, deletions and substitutions of words. -/
theorem C235_levenshtein (x y : List W) : Edits x y (lev x y) ∧ ∀ n, Edits x y n → lev x y ≤ n := lev_dist x y

theorem werLoop_spec (verbose : Bool) : ∀ (l : List (List W × List W)) (acc : Nat × Nat),
    werLoop verbose acc l = if verbose = true ∧ ∃ p ∈ l, p.1 = [] then none
      else some (acc.1 + (l.map fun p => p.1.length).sum, acc.2 + (l.map fun p => lev p.1 p.2).sum) := by
  intro l
  induction l with
  | nil => intro acc; simp [werLoop]
  | cons p l ih =>
    intro acc
    obtain ⟨r, t⟩ := p
    show (if verbose = true ∧ r.length = 0 then none else werLoop verbose (acc.1 + r.length, acc.2 + lev r t) l) = _
    by_cases h : verbose = true ∧ r.length = 0
    · rw [if_pos h, if_pos ⟨h.1, (r, t), List.mem_cons_self, List.length_eq_zero_iff.1 h.2⟩]
    · rw [if_neg h, ih]
      by_cases h2 : verbose = true ∧ ∃ p ∈ l, p.1 = []
      · obtain ⟨hv, p, hp, hp'⟩ := h2
        rw [if_pos ⟨hv, p, hp, hp'⟩, if_pos ⟨hv, p, List.mem_cons_of_mem _ hp, hp'⟩]
      · rw [if_neg h2, if_neg]
        · simp [Nat.add_assoc]
        · rintro ⟨hv, p, hp, hp'⟩
          rcases List.mem_cons.1 hp with rfl | hp
          · exact h ⟨hv, by rw [show r = [] from hp']; rfl⟩
          · exact h2 ⟨hv, p, hp, hp'⟩

/-- The rate is the sum of the distances of the sentence pairs divided by the number of words of the references (of the first
sentences, if one file is longer); the tool fails when there are no reference words and, in verbose mode, when one of these references
is empty. -/
theorem C235_wer (verbose : Bool) (refs hyps : List (List W)) :
    ∃ ds : List Nat, ds.length = min refs.length hyps.length ∧
      (∀ (k : Nat) (x y : List W) (d : Nat), refs[k]? = some x → hyps[k]? = some y → ds[k]? = some d → Dist x y d) ∧
      ((∀ x ∈ refs.take hyps.length, x = []) → wer verbose refs hyps = none) ∧
      ((∃ x ∈ refs.take hyps.length, x ≠ []) → (verbose = true → ∀ x ∈ refs.take hyps.length, x ≠ []) →
        wer verbose refs hyps = some (ds.sum, ((refs.take hyps.length).map List.length).sum)) ∧
      (verbose = true → (∃ x ∈ refs.take hyps.length, x = []) → wer verbose refs hyps = none) := by
  have hfst : (refs.zip hyps).map Prod.fst = refs.take hyps.length := by
    have : ∀ (a b : List (List W)), (a.zip b).map Prod.fst = a.take b.length := by
      intro a
      induction a with
      | nil => intro b; simp
      | cons x a ih =>
        intro b
        cases b with
        | nil => rfl
        | cons y b => rw [List.zip_cons_cons, List.map_cons, ih, List.length_cons, List.take_succ_cons]
    exact this refs hyps
  have hlen : ((refs.zip hyps).map fun p => p.1.length) = (refs.take hyps.length).map List.length := by
    rw [← hfst, List.map_map]; rfl
  have hmem : ∀ x, x ∈ refs.take hyps.length ↔ ∃ p ∈ refs.zip hyps, p.1 = x := by
    intro x; rw [← hfst, List.mem_map]
  refine ⟨(refs.zip hyps).map fun p => lev p.1 p.2, by simp, ?_, ?_, ?_, ?_⟩
  · intro k x y d hx hy hd
    rw [List.getElem?_map] at hd
    have : (refs.zip hyps)[k]? = some (x, y) := by rw [List.getElem?_zip_eq_some]; exact ⟨hx, hy⟩
    rw [this] at hd
    injection hd with hd
    subst hd
    exact lev_dist x y
  · intro h
    unfold wer
    rw [werLoop_spec]
    split
    · rename_i he; split at he
      · rfl
      · cases he
    · rename_i rw' ed' he
      split at he
      · cases he
      · injection he with he
        injection he with h1 h2
        rw [if_pos]
        rw [← h1, hlen, Nat.zero_add]
        have : ∀ l : List (List W), (∀ x ∈ l, x = []) → (l.map List.length).sum = 0 := by
          intro l
          induction l with
          | nil => intro _; rfl
          | cons a l ih =>
            intro hl
            rw [List.map_cons, List.sum_cons, ih fun x hx => hl x (List.mem_cons_of_mem _ hx), hl a List.mem_cons_self]; rfl
        exact this _ h
  · rintro ⟨x, hx, hxn⟩ hv
    unfold wer
    rw [werLoop_spec, if_neg]
    · simp only [Nat.zero_add, hlen]
      rw [if_neg]
      have : ∀ l : List (List W), x ∈ l → (l.map List.length).sum ≠ 0 := by
        intro l
        induction l with
        | nil => intro h; cases h
        | cons a l ih =>
          intro hl
          rw [List.map_cons, List.sum_cons]
          rcases List.mem_cons.1 hl with rfl | hl
          · have : x.length ≠ 0 := fun e => hxn (List.length_eq_zero_iff.1 e)
            omega
          · have := ih hl; omega
      exact this _ hx
    · rintro ⟨h1, p, hp, hp'⟩
      exact hv h1 p.1 ((hmem _).2 ⟨p, hp, rfl⟩) hp'
  · rintro hv ⟨x, hx, rfl⟩
    obtain ⟨p, hp, hp'⟩ := (hmem _).1 hx
    unfold wer
    rw [werLoop_spec, if_pos ⟨hv, p, hp, hp'⟩]

/-- Non-vacuity. -/
example : wer false [[1, 2, 3], [4]] [[1, 3], [5, 4], [6]] = some (2, 4) := by decide
example : wer true [[1, 2, 3], []] [[1, 3], [5, 4], [6]] = none ∧ wer false [[1, 2, 3], []] [[1, 3], [5, 4], [6]] = some (3, 3) := by decide

end Thot.CorpusTools
