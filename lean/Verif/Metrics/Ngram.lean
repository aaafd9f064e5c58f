/-!
Model of the matching of n-grams of `stack_dec/bleu.cc` (`prec_n`) and `stack_dec/chrf.cc` (`count_ngrams`), and the
proof that it computes clipped counts.
-/
namespace Thot.Metrics

variable {α : Type} [DecidableEq α]

/-- Number of n-grams: `if(n>sen.size()) total=0; else total=sen.size()-n+1` (bleu.cc:202-206, chrf.cc:196-200). -/
def numGrams (n : Nat) (s : List α) : Nat := if n > s.length then 0 else s.length - n + 1

/-- The loop on `k` that compares two n-grams (bleu.cc:218-226, chrf.cc:212-220). -/
def matchAt (n : Nat) (s r : List α) (i j : Nat) : Bool := (List.range n).all fun k => s[i + k]? == r[j + k]?

/-- The loop on `j` (bleu.cc:216-233, chrf.cc:210-227), from position `j`, on the flags from that position on: `none`
if no n-gram matches, else the flags. -/
def scan (p : Nat → Bool) : Nat → List Bool → Option (List Bool)
  | _, [] => none
  | j, m :: ms => if p j && !m then some (true :: ms) else (scan p (j + 1) ms).map (m :: ·)

/-- An iteration of the loop on `i` (bleu.cc:214-234, chrf.cc:208-228). -/
def matchStep (n : Nat) (s r : List α) (st : Nat × List Bool) (i : Nat) : Nat × List Bool :=
  match scan (matchAt n s r i) 0 st.2 with
  | some ms => (st.1 + 1, ms)
  | none => st

/-- `prec` of `prec_n` (bleu.cc:191-235); also `countsys` and, with the arguments swapped, `countref` of `count_ngrams`
(chrf.cc:180-254). -/
def countMatches (n : Nat) (s r : List α) : Nat :=
  ((List.range (numGrams n s)).foldl (matchStep n s r) (0, List.replicate (numGrams n r) false)).1

/-! ### Specification -/

/-- The n-grams of a sequence, in order. -/
def grams (n : Nat) (s : List α) : List (List α) :=
  (List.range (numGrams n s)).map fun i => (s.drop i).take n

/-- Sum of natural numbers over a list. -/
def nsum {β : Type} (f : β → Nat) (l : List β) : Nat := (l.map f).sum

/-- Number of occurrences in a list. -/
def occ {β : Type} [DecidableEq β] (g : β) (l : List β) : Nat := l.count g

/-- The clipped counts of Papineni et al.: each different n-gram of `s` counts at most as many times as it appears
in `r`. -/
def clipped {β : Type} [DecidableEq β] (a b : List β) : Nat :=
  nsum (fun g => min (occ g a) (occ g b)) a.eraseDups

/-! ### Proofs -/

theorem nsum_nil {β : Type} (f : β → Nat) : nsum f [] = 0 := rfl
theorem nsum_cons {β : Type} (f : β → Nat) (x : β) (l : List β) : nsum f (x :: l) = f x + nsum f l := by
  unfold nsum; simp

theorem nsum_congr {β : Type} {f g : β → Nat} {l : List β} (h : ∀ x ∈ l, f x = g x) : nsum f l = nsum g l := by
  induction l with
  | nil => rfl
  | cons x l ih =>
    rw [nsum_cons, nsum_cons, h x List.mem_cons_self, ih (fun y hy => h y (List.mem_cons_of_mem _ hy))]

theorem nsum_le {β : Type} {f g : β → Nat} {l : List β} (h : ∀ x ∈ l, f x ≤ g x) : nsum f l ≤ nsum g l := by
  induction l with
  | nil => exact Nat.le_refl _
  | cons x l ih =>
    rw [nsum_cons, nsum_cons]
    have := h x List.mem_cons_self
    have := ih (fun y hy => h y (List.mem_cons_of_mem _ hy))
    omega

theorem nsum_perm {β : Type} (f : β → Nat) {l m : List β} (h : l.Perm m) : nsum f l = nsum f m := by
  induction h with
  | nil => rfl
  | cons x _ ih => rw [nsum_cons, nsum_cons, ih]
  | swap x y l => simp only [nsum_cons]; omega
  | trans _ _ h1 h2 => rw [h1, h2]

/-- A sum that differs by one at one place. -/
theorem nsum_bump {β : Type} [DecidableEq β] {f g : β → Nat} {l : List β} (hn : l.Nodup) {a : β} (ha : a ∈ l)
    (h1 : f a = g a + 1) (h2 : ∀ x ∈ l, x ≠ a → f x = g x) : nsum f l = nsum g l + 1 := by
  induction l with
  | nil => cases ha
  | cons x l ih =>
    obtain ⟨hn1, hn2⟩ := List.nodup_cons.1 hn
    rw [nsum_cons, nsum_cons]
    by_cases hx : x = a
    · subst hx
      rw [h1, nsum_congr (fun y hy => h2 y (List.mem_cons_of_mem _ hy) (fun e => hn1 (e ▸ hy)))]
      omega
    · have ha' : a ∈ l := by
        rcases List.mem_cons.1 ha with h | h
        · exact absurd h.symm hx
        · exact h
      rw [h2 x List.mem_cons_self hx, ih hn2 ha' (fun y hy => h2 y (List.mem_cons_of_mem _ hy))]
      omega

/-- Greedy matching: every element of `a` takes away an equal element of `b`, if any. -/
def greedy {β : Type} [DecidableEq β] : List β → List β → Nat
  | [], _ => 0
  | x :: a, b => if x ∈ b then greedy a (b.erase x) + 1 else greedy a b

theorem greedy_sum {β : Type} [DecidableEq β] (a b d : List β) (hd : d.Nodup) (had : ∀ x ∈ a, x ∈ d) :
    greedy a b = nsum (fun g => min (a.count g) (b.count g)) d := by
  induction a generalizing b with
  | nil =>
    rw [greedy]
    have : ∀ (l : List β), nsum (fun g => min (([] : List β).count g) (b.count g)) l = 0 := by
      intro l
      induction l with
      | nil => rfl
      | cons x l ih => rw [nsum_cons, ih]; simp
    rw [this]
  | cons x a ih =>
    rw [greedy]
    by_cases hx : x ∈ b
    · rw [if_pos hx, ih _ (fun y hy => had y (List.mem_cons_of_mem _ hy))]
      symm
      apply nsum_bump hd (had x List.mem_cons_self)
      · have : 0 < b.count x := List.count_pos_iff.2 hx
        rw [List.count_cons_self, List.count_erase_self]
        omega
      · intro y _ hy
        rw [List.count_cons_of_ne (fun e => hy e.symm), List.count_erase_of_ne hy]
    · rw [if_neg hx, ih _ (fun y hy => had y (List.mem_cons_of_mem _ hy))]
      apply nsum_congr
      intro y _
      by_cases hy : y = x
      · subst hy
        rw [List.count_eq_zero.2 hx]
        simp
      · rw [List.count_cons_of_ne (fun e => hy e.symm)]

theorem mem_eraseDups {β : Type} [DecidableEq β] (l : List β) (x : β) : x ∈ l.eraseDups ↔ x ∈ l := by
  exact List.mem_eraseDups

theorem nodup_eraseDups {β : Type} [DecidableEq β] (l : List β) : l.eraseDups.Nodup := by
  induction hn : l.length using Nat.strongRecOn generalizing l with
  | ind n ih =>
    cases l with
    | nil => simp
    | cons x l =>
      rw [List.eraseDups_cons, List.nodup_cons]
      refine ⟨?_, ih _ ?_ _ rfl⟩
      · rw [mem_eraseDups]
        simp
      · have := List.length_filter_le (fun b => !b == x) l
        simp only [List.length_cons] at hn
        omega

theorem greedy_clipped {β : Type} [DecidableEq β] (a b : List β) : greedy a b = clipped a b :=
  greedy_sum a b _ (nodup_eraseDups a) (fun x hx => (mem_eraseDups a x).2 hx)

/-- The elements of `b` not flagged. -/
def unflagged {β : Type} : List β → List Bool → List β
  | b :: bs, m :: ms => if m then unflagged bs ms else b :: unflagged bs ms
  | _, _ => []

theorem scan_unflagged {β : Type} [DecidableEq β] (x : β) (b : List β) (ms : List Bool) (p : Nat → Bool) (j : Nat)
    (hl : ms.length = b.length) (hp : ∀ k, (h : k < b.length) → p (j + k) = decide (b[k] = x)) :
    match scan p j ms with
    | some ms' => x ∈ unflagged b ms ∧ unflagged b ms' = (unflagged b ms).erase x ∧ ms'.length = ms.length
    | none => x ∉ unflagged b ms := by
  induction b generalizing ms j with
  | nil =>
    cases ms with
    | nil => simp [scan, unflagged]
    | cons m ms => simp at hl
  | cons y b ih =>
    cases ms with
    | nil => simp at hl
    | cons m ms =>
      have h0 : p j = decide (y = x) := hp 0 (by simp)
      have ih' := ih ms (j + 1) (by simpa using hl) (fun k hk => by
        have := hp (k + 1) (by simpa using hk)
        rw [show j + (k + 1) = j + 1 + k from by omega] at this
        simpa using this)
      rw [scan, h0]
      cases m with
      | true =>
        simp only [Bool.not_true, Bool.and_false, Bool.false_eq_true, if_false]
        cases hs : scan p (j + 1) ms with
        | none => rw [hs] at ih'; simpa [unflagged] using ih'
        | some ms' => rw [hs] at ih'; simpa [unflagged] using ih'
      | false =>
        by_cases hy : y = x
        · subst hy
          simp [unflagged]
        · simp only [hy, decide_false, Bool.false_and, Bool.false_eq_true, if_false]
          cases hs : scan p (j + 1) ms with
          | none =>
            rw [hs] at ih'
            simp only [Option.map_none, unflagged, Bool.false_eq_true, if_false, List.mem_cons, not_or]
            exact ⟨fun e => hy e.symm, ih'⟩
          | some ms' =>
            rw [hs] at ih'
            simp only [Option.map_some, unflagged, Bool.false_eq_true, if_false, List.length_cons]
            refine ⟨List.mem_cons_of_mem _ ih'.1, ?_, by rw [ih'.2.2]⟩
            rw [List.erase_cons_tail (by simpa using hy), ih'.2.1]

theorem take_drop_eq_iff (n : Nat) (s r : List α) (i j : Nat) (hi : i + n ≤ s.length) (hj : j + n ≤ r.length) :
    matchAt n s r i j = decide ((r.drop j).take n = (s.drop i).take n) := by
  unfold matchAt
  rw [Bool.eq_iff_iff]
  simp only [List.all_eq_true, List.mem_range, beq_iff_eq, decide_eq_true_eq]
  constructor
  · intro h
    apply List.ext_getElem?
    intro k
    rw [List.getElem?_take, List.getElem?_take]
    by_cases hk : k < n
    · rw [if_pos hk, if_pos hk, List.getElem?_drop, List.getElem?_drop, h k hk]
    · rw [if_neg hk, if_neg hk]
  · intro h k hk
    have := congrArg (fun l => l[k]?) h
    simp only [List.getElem?_take, if_pos hk, List.getElem?_drop] at this
    exact this.symm

theorem length_grams (n : Nat) (s : List α) : (grams n s).length = numGrams n s := by simp [grams]

theorem getElem_grams (n : Nat) (s : List α) (i : Nat) (h : i < (grams n s).length) :
    (grams n s)[i] = (s.drop i).take n := by simp [grams]

theorem numGrams_bound {n : Nat} {s : List α} {i : Nat} (h : i < numGrams n s) : i + n ≤ s.length := by
  unfold numGrams at h
  split at h
  · omega
  · omega

theorem matchLoop (n : Nat) (s r : List α) (is : List Nat) (his : ∀ i ∈ is, i < numGrams n s) (c : Nat) (ms : List Bool)
    (hl : ms.length = (grams n r).length) :
    (is.foldl (matchStep n s r) (c, ms)).1 = c + greedy (is.map fun i => (s.drop i).take n) (unflagged (grams n r) ms) := by
  induction is generalizing c ms with
  | nil => rfl
  | cons i is ih =>
    have hi := his i List.mem_cons_self
    have his' := fun x hx => his x (List.mem_cons_of_mem i hx)
    rw [List.foldl_cons, List.map_cons, greedy]
    have hs := scan_unflagged ((s.drop i).take n) (grams n r) ms (matchAt n s r i) 0 hl (by
      intro k hk
      rw [Nat.zero_add, getElem_grams, take_drop_eq_iff n s r i k (numGrams_bound hi)
        (numGrams_bound (by rw [← length_grams]; exact hk))])
    unfold matchStep
    dsimp only
    cases hsc : scan (matchAt n s r i) 0 ms with
    | none =>
      rw [hsc] at hs
      dsimp only
      have := ih his' c ms hl
      unfold matchStep at this
      rw [this, if_neg hs]
    | some ms' =>
      rw [hsc] at hs
      dsimp only
      have := ih his' (c + 1) ms' (by rw [hs.2.2, hl])
      unfold matchStep at this
      rw [this, if_pos hs.1, hs.2.1]
      omega

theorem unflagged_replicate {β : Type} (b : List β) : unflagged b (List.replicate b.length false) = b := by
  induction b with
  | nil => rfl
  | cons x b ih => simp [List.replicate_succ, unflagged, ih]

theorem countMatches_clipped (n : Nat) (s r : List α) : countMatches n s r = clipped (grams n s) (grams n r) := by
  unfold countMatches
  have e : numGrams n r = (grams n r).length := (length_grams n r).symm
  rw [matchLoop n s r _ (fun i hi => List.mem_range.1 hi) 0 _ (by simp [length_grams]), Nat.zero_add,
    e, unflagged_replicate, greedy_clipped]
  rfl

/-! Facts about clipped counts. -/

theorem clipped_superset {β : Type} [DecidableEq β] (a b d : List β) (hd : d.Nodup) (had : ∀ x ∈ a, x ∈ d) :
    clipped a b = nsum (fun g => min (a.count g) (b.count g)) d := by
  rw [← greedy_clipped, greedy_sum a b d hd had]

theorem clipped_comm {β : Type} [DecidableEq β] (a b : List β) : clipped a b = clipped b a := by
  rw [clipped_superset a b (a ++ b).eraseDups (nodup_eraseDups _)
      (fun x hx => (mem_eraseDups _ x).2 (List.mem_append_left _ hx)),
    clipped_superset b a (a ++ b).eraseDups (nodup_eraseDups _)
      (fun x hx => (mem_eraseDups _ x).2 (List.mem_append_right _ hx))]
  exact nsum_congr (fun x _ => Nat.min_comm _ _)

theorem greedy_le {β : Type} [DecidableEq β] (a b : List β) : greedy a b ≤ a.length := by
  induction a generalizing b with
  | nil => exact Nat.le_refl _
  | cons x a ih =>
    rw [greedy]
    split
    · have := ih (b.erase x); simp; exact this
    · have := ih b; simp; omega

theorem clipped_le {β : Type} [DecidableEq β] (a b : List β) : clipped a b ≤ a.length := by
  rw [← greedy_clipped]; exact greedy_le a b

theorem greedy_eq_length {β : Type} [DecidableEq β] (a b : List β) :
    greedy a b = a.length ↔ ∀ g, a.count g ≤ b.count g := by
  induction a generalizing b with
  | nil => simp [greedy]
  | cons x a ih =>
    rw [greedy]
    by_cases hx : x ∈ b
    · rw [if_pos hx, List.length_cons]
      have : (greedy a (b.erase x) + 1 = a.length + 1) ↔ greedy a (b.erase x) = a.length := by omega
      rw [this, ih]
      have hpos : 0 < b.count x := List.count_pos_iff.2 hx
      constructor
      · intro h g
        have := h g
        by_cases hg : g = x
        · subst hg
          rw [List.count_erase_self] at this
          rw [List.count_cons_self]; omega
        · rw [List.count_erase_of_ne hg] at this
          rw [List.count_cons_of_ne (fun e => hg e.symm)]; exact this
      · intro h g
        have := h g
        by_cases hg : g = x
        · subst hg
          rw [List.count_cons_self] at this
          rw [List.count_erase_self]; omega
        · rw [List.count_cons_of_ne (fun e => hg e.symm)] at this
          rw [List.count_erase_of_ne hg]; exact this
    · rw [if_neg hx, List.length_cons]
      have := greedy_le a b
      constructor
      · intro h; omega
      · intro h
        have := h x
        rw [List.count_cons_self, List.count_eq_zero.2 hx] at this
        omega

theorem clipped_self {β : Type} [DecidableEq β] (a : List β) : clipped a a = a.length := by
  rw [← greedy_clipped, greedy_eq_length]
  exact fun g => Nat.le_refl _

end Thot.Metrics
