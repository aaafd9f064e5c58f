import Verif.Exper.Conf
/-!
# C287–C290: lengths, vocabularies and counts
-/
namespace Thot.Exper

open Thot
open Thot.Awk (fields)
open Thot.Sum (sumBy sumBy_nil sumBy_cons)

/-! ### C287: corpus lengths -/

/-- The lines with `i` words. -/
def ofLen (ls : List W) (i : Nat) : Nat := ls.countP fun l => decide ((fields ' ' l).length = i)

/-- The lines with at most `i` words. -/
def upTo (ls : List W) (i : Nat) : Nat := ls.countP fun l => decide ((fields ' ' l).length ≤ i)

theorem lmax_fold (ls : List W) : ∀ m : Nat, m ≤ ls.foldl (fun m l => if m < nf l then nf l else m) m ∧
    (∀ l ∈ ls, nf l ≤ ls.foldl (fun m l => if m < nf l then nf l else m) m) ∧
    (ls.foldl (fun m l => if m < nf l then nf l else m) m = m ∨ ∃ l ∈ ls, nf l = ls.foldl (fun m l => if m < nf l then nf l else m) m) := by
  induction ls with
  | nil => intro m; exact ⟨Nat.le_refl _, by simp, .inl rfl⟩
  | cons l ls ih =>
    intro m
    rw [List.foldl_cons]
    obtain ⟨h1, h2, h3⟩ := ih (if m < nf l then nf l else m)
    have hm : m ≤ (if m < nf l then nf l else m) ∧ nf l ≤ (if m < nf l then nf l else m) := by split <;> omega
    refine ⟨by omega, ?_, ?_⟩
    · intro x hx
      rcases List.mem_cons.1 hx with rfl | hx
      · omega
      · exact h2 x hx
    · rcases h3 with h3 | ⟨x, hx, h3⟩
      · rw [h3]
        split
        · exact .inr ⟨l, List.mem_cons_self, rfl⟩
        · exact .inl rfl
      · exact .inr ⟨x, List.mem_cons_of_mem _ hx, h3⟩

theorem lenCounts_fold (ls : List W) : ∀ a : (Nat → Nat) × Nat × Nat,
    ls.foldl (fun (a : (Nat → Nat) × Nat × Nat) l => (fun k => if k = nf l then a.1 (nf l) + 1 else a.1 k, a.2.1 + 1, a.2.2 + nf l)) a =
      (fun k => a.1 k + ofLen ls k, a.2.1 + ls.length, a.2.2 + (ls.map nf).sum) := by
  induction ls with
  | nil => intro a; simp [ofLen]
  | cons l ls ih =>
    intro a
    rw [List.foldl_cons, ih]
    refine Prod.ext ?_ (Prod.ext ?_ ?_)
    · funext k
      dsimp only
      unfold ofLen
      rw [List.countP_cons]
      by_cases h : k = nf l
      · subst h
        rw [if_pos rfl, if_pos (by simp [nf])]; omega
      · rw [if_neg h, if_neg (by simp only [decide_eq_true_eq]; exact fun e => h e.symm)]; omega
    · simp only [List.length_cons]; omega
    · simp only [List.map_cons, List.sum_cons]; omega

theorem lenRows_eq (frec : Nat → Nat) (total : Nat) : ∀ (n i acum : Nat),
    lenRows frec total n i acum = (List.range n).map fun j =>
      let c := acum + ((List.range (j + 1)).map fun k => frec (i + k)).sum
      (⟨i + j, frec (i + j), (frec (i + j) : Rat) / total * 100, c, (c : Rat) / total * 100⟩ : LenRow) := by
  intro n
  induction n with
  | zero => intro i acum; rfl
  | succ n ih =>
    intro i acum
    rw [lenRows, ih, List.range_succ_eq_map (n := n), List.map_cons, List.map_map]
    refine congr (congrArg _ ?_) ?_
    · simp
    · apply List.map_congr_left
      intro j _
      have : ((List.range (j + 1 + 1)).map fun k => frec (i + k)).sum = frec i + ((List.range (j + 1)).map fun k => frec (i + 1 + k)).sum := by
        rw [List.range_succ_eq_map (n := j + 1), List.map_cons, List.sum_cons, List.map_map]
        congr 2
        apply List.map_congr_left
        intro k _
        simp only [Function.comp]
        congr 1
        omega
      dsimp only [Function.comp, Nat.succ_eq_add_one]
      rw [this, show i + 1 + j = i + (j + 1) from by omega,
        show acum + frec i + ((List.range (j + 1)).map fun k => frec (i + 1 + k)).sum = acum + (frec i + ((List.range (j + 1)).map fun k => frec (i + 1 + k)).sum) from by omega]

theorem sum_add (n : Nat) (f g : Nat → Nat) : ((List.range n).map fun k => f k + g k).sum = ((List.range n).map f).sum + ((List.range n).map g).sum := by
  induction n with
  | zero => rfl
  | succ n ih => simp only [List.range_succ, List.map_append, List.sum_append, ih, List.map_cons, List.map_nil, List.sum_cons, List.sum_nil]; omega

theorem sum_single (x n : Nat) : ((List.range n).map fun k => if x = k then 1 else 0).sum = if x < n then 1 else 0 := by
  induction n with
  | zero => rfl
  | succ n ih =>
    rw [List.range_succ, List.map_append, List.sum_append, ih]
    simp only [List.map_cons, List.map_nil, List.sum_cons, List.sum_nil]
    grind

theorem sum_ofLen (ls : List W) (i : Nat) : ((List.range (i + 1)).map fun k => ofLen ls k).sum = upTo ls i := by
  induction ls with
  | nil =>
    have : ∀ n : Nat, ((List.range n).map fun k => ofLen [] k).sum = 0 := by
      intro n
      induction n with
      | zero => rfl
      | succ n ih => rw [List.range_succ, List.map_append, List.sum_append, ih]; rfl
    rw [this]; rfl
  | cons l ls ih =>
    have e : (fun k => ofLen (l :: ls) k) = fun k => ofLen ls k + if (fields ' ' l).length = k then 1 else 0 := by
      funext k
      unfold ofLen
      rw [List.countP_cons]
      simp only [decide_eq_true_eq]
    rw [e, sum_add, ih, sum_single]
    unfold upTo
    rw [List.countP_cons]
    simp only [decide_eq_true_eq]
    grind

/-- C287: for a corpus with one line or more the histogram has a row for each length from 0 to the largest one, with the number of lines of this
length, the number of lines of at most this length and their percentages; the last row accumulates the whole corpus; the number of lines and the mean
length are right. An empty corpus gives a division by zero. -/
theorem C287_lengths (ls : List W) :
    (corpusLength ls = none ↔ ls = []) ∧
    ∀ (rows : List LenRow) (total : Nat) (mean : Rat), corpusLength ls = some (rows, total, mean) →
      total = ls.length ∧ mean * ls.length = ((ls.map fun l => (fields ' ' l).length).sum : Nat) ∧
      ∃ L : Nat, rows.length = L + 1 ∧ (∀ l ∈ ls, (fields ' ' l).length ≤ L) ∧ (∃ l ∈ ls, (fields ' ' l).length = L) ∧ upTo ls L = ls.length ∧
        ∀ i (h : i < rows.length), rows[i].l = i ∧ rows[i].freq = ofLen ls i ∧ rows[i].cum = upTo ls i ∧
          rows[i].pct * ls.length = 100 * ofLen ls i ∧ rows[i].cumPct * ls.length = 100 * upTo ls i := by
  have hc : lenCounts ls = (fun k => ofLen ls k, ls.length, (ls.map nf).sum) := by
    unfold lenCounts
    rw [lenCounts_fold]
    simp
  unfold corpusLength
  rw [hc]
  dsimp only
  by_cases he : ls.length = 0
  · rw [if_pos he]
    refine ⟨by simp [List.length_eq_zero_iff.1 he], ?_⟩
    intro _ _ _ h; cases h
  · rw [if_neg he]
    have hne : ls ≠ [] := fun h => he (by rw [h]; rfl)
    refine ⟨by simp [hne], ?_⟩
    intro rows total mean h
    injection h with h
    injection h with h1 h
    injection h with h2 h3
    have hz : (ls.length : Rat) ≠ 0 := by exact_mod_cast he
    subst h1 h2 h3
    refine ⟨rfl, ?_, lmax ls, ?_, ?_, ?_, ?_, ?_⟩
    · rw [Rat.div_mul_cancel hz]; rfl
    · rw [lenRows_eq]; simp
    · intro l hl; exact (lmax_fold ls 0).2.1 l hl
    · rcases (lmax_fold ls 0).2.2 with h | h
      · cases ls with
        | nil => exact absurd rfl hne
        | cons l ls =>
          refine ⟨l, List.mem_cons_self, ?_⟩
          have := (lmax_fold (l :: ls) 0).2.1 l List.mem_cons_self
          unfold lmax
          show nf l = _
          omega
      · exact h
    · unfold upTo
      rw [List.countP_eq_length]
      intro l hl
      simp only [decide_eq_true_eq]
      exact (lmax_fold ls 0).2.1 l hl
    · intro i hi
      simp only [lenRows_eq, List.getElem_map, List.getElem_range, Nat.zero_add, sum_ofLen]
      refine ⟨trivial, trivial, trivial, ?_, ?_⟩
      · have := Rat.div_mul_cancel (a := (ofLen ls i : Rat)) hz
        grind
      · have := Rat.div_mul_cancel (a := (upTo ls i : Rat)) hz
        grind

example : corpusLength ["a b".toList, "c".toList, "d e".toList] ≠ none := by
  intro h; exact absurd ((C287_lengths _).1.1 h) (by decide)

end Thot.Exper
