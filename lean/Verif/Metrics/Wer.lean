import Mathlib.Algebra.Order.Field.Rat
import Mathlib.Tactic.Linarith
import Verif.EditDist.Props
import Verif.Metrics.Ngram
/-!
Model of `stack_dec/MiraWer.cc` and C116.

Simplifications: `int` and `unsigned int` are natural numbers, `double` is rational.
-/
namespace Thot.Metrics

open Thot.EditDist (Script Costs)

variable {α : Type} [DecidableEq α]

/-- The loop on `j` (MiraWer.cc:99-103): `left` is `col[j]`, and the lists are `s2[j..]` and `prevCol[j..]`; the result
is `col[j+1..]`. -/
def edCells (a : α) : Nat → List α → List Nat → List Nat
  | left, b :: bs, p :: q :: ps =>
    min (min (q + 1) (left + 1)) (p + (if a = b then 0 else 1)) ::
      edCells a (min (min (q + 1) (left + 1)) (p + (if a = b then 0 else 1))) bs (q :: ps)
  | _, _, _ => []

/-- The loop on `i` (MiraWer.cc:97-105), from row `i`, with `s1[i..]` and `prevCol`. -/
def edRows (s2 : List α) : Nat → List α → List Nat → List Nat
  | _, [], prev => prev
  | i, a :: as, prev => edRows s2 (i + 1) as ((i + 1) :: edCells a (i + 1) s2 prev)

/-- `MiraWer::ed` (MiraWer.cc:90-107). -/
def ed (s1 s2 : List α) : Nat := (edRows s2 0 s1 (List.range (s2.length + 1))).getD s2.length 0

/-- `MiraWer::sentScore` (MiraWer.cc:52-67). -/
def werSentScore (cand ref : List α) : Rat :=
  if ref.length = 0 then 0 else 1 - (ed cand ref : Rat) / ref.length

/-- `MiraWer::sentBackgroundScore` (MiraWer.cc:32-49). -/
def werBackgroundScore (cand ref : List α) : Rat :=
  if ref.length = 0 then 0 else (1 - (ed cand ref : Rat) / ref.length) * ref.length

/-- The counters of `MiraWer::corpusScore` (MiraWer.cc:74-82), for the list of candidates with their references. -/
def werCounts (l : List (List α × List α)) : Nat × Nat :=
  l.foldl (fun c p => (c.1 + ed p.1 p.2, c.2 + p.2.length)) (0, 0)

/-- `MiraWer::corpusScore` (MiraWer.cc:70-87). -/
def werCorpusScore (l : List (List α × List α)) : Rat :=
  if (werCounts l).2 = 0 then 0 else 1 - ((werCounts l).1 : Rat) / (werCounts l).2

/-! ### Proofs -/

/-- The distance between prefixes. -/
def lev (x y : List α) : Nat → Nat → Nat
  | 0, j => j
  | i + 1, 0 => i + 1
  | i + 1, j + 1 =>
    min (min (lev x y i (j + 1) + 1) (lev x y (i + 1) j + 1)) (lev x y i j + (if x[i]? = y[j]? then 0 else 1))

theorem edCells_lev (x y : List α) (a : α) (i : Nat) (ha : x[i]? = some a) (j : Nat) (bs : List α) (ps : List Nat)
    (hb : bs = y.drop j) (hj : j ≤ y.length) (hp : ps = (List.range' j (y.length + 1 - j)).map (lev x y i)) :
    edCells a (lev x y (i + 1) j) bs ps = (List.range' (j + 1) (y.length - j)).map (lev x y (i + 1)) := by
  induction bs generalizing j ps with
  | nil =>
    have : y.length - j = 0 := by
      have := congrArg List.length hb
      simp at this; omega
    simp [edCells, this]
  | cons b bs ih =>
    have hlt : j < y.length := by
      have := congrArg List.length hb
      simp at this; omega
    have hjb : y[j]? = some b := by
      have := congrArg (fun l => l[0]?) hb
      simpa using this.symm
    obtain ⟨m, hm⟩ : ∃ m, y.length = j + 1 + m := ⟨y.length - j - 1, by omega⟩
    have e1 : y.length + 1 - j = m + 1 + 1 := by omega
    have e2 : y.length - j = m + 1 := by omega
    rw [hp, e1, List.range'_succ, List.range'_succ, e2, List.range'_succ]
    simp only [List.map_cons, edCells]
    have hv : min (min (lev x y i (j + 1) + 1) (lev x y (i + 1) j + 1)) (lev x y i j + (if a = b then 0 else 1)) =
        lev x y (i + 1) (j + 1) := by
      rw [lev, ha, hjb]
      simp
    rw [hv]
    congr 1
    have := ih (j + 1) (lev x y i (j + 1) :: (List.range' (j + 1 + 1) m).map (lev x y i)) (by
      have := congrArg List.tail hb
      simpa using this) (by omega) (by
      have e3 : y.length + 1 - (j + 1) = m + 1 := by omega
      rw [e3, List.range'_succ]; rfl)
    rw [this]
    congr 2
    omega

theorem edRows_lev (x y : List α) (i : Nat) (as : List α) (prev : List Nat) (ha : as = x.drop i) (hi : i ≤ x.length)
    (hp : prev = (List.range (y.length + 1)).map (lev x y i)) :
    edRows y i as prev = (List.range (y.length + 1)).map (lev x y x.length) := by
  induction as generalizing i prev with
  | nil =>
    have : i = x.length := by
      have := congrArg List.length ha
      simp at this; omega
    rw [edRows, hp, this]
  | cons a as ih =>
    have hlt : i < x.length := by
      have := congrArg List.length ha
      simp at this; omega
    have hia : x[i]? = some a := by
      have := congrArg (fun l => l[0]?) ha
      simpa using this.symm
    rw [edRows]
    apply ih (i + 1) _ (by have := congrArg List.tail ha; simpa using this) (by omega)
    have h0 : lev x y (i + 1) 0 = i + 1 := by rw [lev]
    have := edCells_lev x y a i hia 0 y prev (by simp) (by omega) (by rw [hp, List.range_eq_range']; rfl)
    rw [h0] at this
    rw [this, List.range_eq_range', List.range'_succ]
    simp [h0]

theorem ed_lev (x y : List α) : ed x y = lev x y x.length y.length := by
  unfold ed
  rw [edRows_lev x y 0 x _ (by simp) (by omega) (by
    apply List.ext_getElem
    · simp
    · intro j h1 h2; simp [lev])]
  rw [List.getD_eq_getElem?_getD]
  simp

theorem lev_grid (x y : List α) (i j : Nat) :
    ((lev x y i j : Nat) : Rat) = (EditDist.gStr Costs.default x y false).D i j := by
  induction i generalizing j with
  | zero =>
    induction j with
    | zero => rw [lev, EditDist.Grid.D]; rfl
    | succ j ih =>
      rw [EditDist.Grid.D, ← ih, lev, lev]
      show ((j + 1 : Nat) : Rat) = (j : Rat) + 1
      rw [Rat.natCast_add]; rfl
  | succ i ihi =>
    induction j with
    | zero =>
      rw [EditDist.Grid.D, ← ihi 0]
      have : lev x y i 0 = i := by cases i <;> rw [lev]
      rw [this, lev]
      show ((i + 1 : Nat) : Rat) = (i : Rat) + 1
      rw [Rat.natCast_add]; rfl
    | succ j ihj =>
      rw [EditDist.Grid.D, ← ihi j, ← ihi (j + 1), ← ihj, lev]
      simp only [EditDist.gStr, Costs.default, Nat.add_sub_cancel, Bool.false_and, Bool.false_eq_true, if_false]
      obtain ⟨u, hu⟩ : ∃ u, u = lev x y i (j + 1) := ⟨_, rfl⟩
      obtain ⟨l, hl⟩ : ∃ l, l = lev x y (i + 1) j := ⟨_, rfl⟩
      obtain ⟨d, hd⟩ : ∃ d, d = lev x y i j := ⟨_, rfl⟩
      rw [← hu, ← hl, ← hd]
      have c1 : ∀ n : Nat, (n : Rat) + 1 = ((n + 1 : Nat) : Rat) := fun n => by rw [Rat.natCast_add]; rfl
      have c0 : ∀ n : Nat, (n : Rat) + 0 = (n : Rat) := fun n => Rat.add_zero _
      have lt : ∀ m n : Nat, ((m : Rat) < (n : Rat)) = (m < n) := fun m n => by rw [Rat.natCast_lt_natCast]
      split
      · simp only [c1, c0, lt]
        split <;> split <;> rename_i h2 <;> simp only [lt] at h2 <;> refine congrArg (fun n : Nat => (n : Rat)) ?_ <;> omega
      · simp only [c1, lt]
        split <;> split <;> rename_i h2 <;> simp only [lt] at h2 <;> refine congrArg (fun n : Nat => (n : Rat)) ?_ <;> omega

theorem ed_dist (x y : List α) : EditDist.calculateEditDist Costs.default x y = some (ed x y : Rat) := by
  obtain ⟨dm, h, -⟩ := EditDist.editDistDm_ok Costs.default x y
  rw [EditDist.calculateEditDist, h, ed_lev, lev_grid, ← EditDist.gPlain_D]
  rfl

theorem lev_le (x y : List α) (i j : Nat) : lev x y i j ≤ max i j := by
  induction i generalizing j with
  | zero => rw [lev]; omega
  | succ i ih =>
    cases j with
    | zero => rw [lev]; omega
    | succ j =>
      rw [lev]
      have := ih j
      have h2 : (if x[i]? = y[j]? then 0 else 1) ≤ 1 := by split <;> omega
      omega

/-- C116: the number of errors of a candidate is the length of the shortest script of insertions, deletions and
substitutions that turns it into the reference (`Costs.default` makes each of them cost 1 and keeping a word cost 0), so
it is zero only for the reference itself, at most the longer length, and symmetric. -/
theorem C116_word_errors (cand ref : List α) :
    Script Costs.default cand ref (ed cand ref : Rat) ∧
    (∀ c, Script Costs.default cand ref c → (ed cand ref : Rat) ≤ c) ∧
    (ed cand ref = 0 ↔ cand = ref) ∧
    ed cand ref ≤ max cand.length ref.length ∧ ed cand ref = ed ref cand := by
  have h := EditDist.dist_unique.1 (ed_dist cand ref)
  refine ⟨h.1, h.2, ?_, ?_, ?_⟩
  · rw [← EditDist.C30_default_zero_iff_eq, ed_dist, Option.some.injEq]
    constructor
    · intro h; rw [h]; rfl
    · intro h; exact Rat.natCast_eq_zero_iff.1 h
  · rw [ed_lev]; exact lev_le _ _ _ _
  · have h2 := EditDist.dist_unique.1 (ed_dist ref cand)
    have a1 := h.2 _ (h2.1.symm rfl)
    have a2 := h2.2 _ (h.1.symm rfl)
    rw [Rat.natCast_le_natCast] at a1 a2
    omega

/-- C116: the score of a candidate for a reference with words is one minus the errors per word of the reference; it is
at most 1, it is 1 exactly for the reference itself, and it is nonnegative exactly when there are no more errors than
words in the reference; times the length of the reference it is that length minus the errors. An empty reference
always scores 0. -/
theorem C116_sentence_score (cand ref : List α) (hr : ref ≠ []) :
    werSentScore cand ref * ref.length = ref.length - (ed cand ref : Rat) ∧
    werSentScore cand ref ≤ 1 ∧ (werSentScore cand ref = 1 ↔ cand = ref) ∧
    (0 ≤ werSentScore cand ref ↔ ed cand ref ≤ ref.length) ∧
    werBackgroundScore cand ref = ref.length - (ed cand ref : Rat) ∧
    werSentScore cand [] = 0 ∧ werBackgroundScore cand [] = 0 := by
  have hl : ref.length ≠ 0 := by simpa using hr
  have hl0 : (0 : Rat) < ref.length := by
    have : ((0 : Nat) : Rat) < (ref.length : Rat) := Rat.natCast_lt_natCast.2 (by omega)
    exact this
  have hne : (ref.length : Rat) ≠ 0 := by grind
  have hv : werSentScore cand ref = 1 - (ed cand ref : Rat) / ref.length := by unfold werSentScore; rw [if_neg hl]
  have hdm : (ed cand ref : Rat) / ref.length * ref.length = ed cand ref := Rat.div_mul_cancel hne
  have he0 : (0 : Rat) ≤ (ed cand ref : Rat) := Rat.natCast_nonneg
  have hd0 : 0 ≤ (ed cand ref : Rat) / ref.length := div_nonneg he0 (by grind)
  have hprod : werSentScore cand ref * ref.length = ref.length - (ed cand ref : Rat) := by
    rw [hv, sub_mul, Rat.one_mul, hdm]
  refine ⟨hprod, by rw [hv]; grind, ?_, ?_, ?_, ?_, ?_⟩
  · rw [← (C116_word_errors cand ref).2.2.1]
    constructor
    · intro h
      rw [h, Rat.one_mul] at hprod
      exact Rat.natCast_eq_zero_iff.1 (by grind)
    · intro h
      rw [hv, h]
      have : ((0 : Nat) : Rat) / (ref.length : Rat) = 0 := by
        show (0 : Rat) / _ = 0
        exact zero_div _
      rw [this]; grind
  · rw [← Rat.natCast_le_natCast]
    constructor
    · intro h
      have := Rat.mul_nonneg h (Rat.le_of_lt hl0)
      rw [hprod] at this; grind
    · intro h
      rcases le_total 0 (werSentScore cand ref) with h0 | h0
      · exact h0
      · have : werSentScore cand ref * ref.length = 0 := by
          have a1 : 0 ≤ (-werSentScore cand ref) * ref.length := Rat.mul_nonneg (by grind) (Rat.le_of_lt hl0)
          rw [Rat.neg_mul] at a1
          grind
        rcases Rat.mul_eq_zero.1 this with e | e
        · rw [e]
        · exact absurd e hne
  · unfold werBackgroundScore
    rw [if_neg hl, ← hv, hprod]
  · rfl
  · rfl

theorem werCounts_eq (l : List (List α × List α)) :
    werCounts l = (nsum (fun p => ed p.1 p.2) l, nsum (fun p => p.2.length) l) := by
  unfold werCounts
  have : ∀ (c : Nat × Nat), l.foldl (fun c p => (c.1 + ed p.1 p.2, c.2 + p.2.length)) c =
      (c.1 + nsum (fun p => ed p.1 p.2) l, c.2 + nsum (fun p => p.2.length) l) := by
    induction l with
    | nil => intro c; simp [nsum_nil]
    | cons p l ih =>
      intro c
      rw [List.foldl_cons, ih, nsum_cons, nsum_cons]
      simp only [Nat.add_assoc]
  rw [this]; simp

/-- C116: the score of a corpus is one minus the total number of errors per word of the references (0 if the references
have no words). It is at most 1 and it is 1 exactly when every candidate is its reference. -/
theorem C116_corpus_score (l : List (List α × List α)) (hr : ∃ p ∈ l, p.2 ≠ []) :
    werCorpusScore l * (nsum (fun p => p.2.length) l : Nat) =
      (nsum (fun p => p.2.length) l : Nat) - ((nsum (fun p => ed p.1 p.2) l : Nat) : Rat) ∧
    werCorpusScore l ≤ 1 ∧ (werCorpusScore l = 1 ↔ ∀ p ∈ l, p.1 = p.2) := by
  have hz : ∀ (f : List α × List α → Nat) (m : List (List α × List α)), nsum f m = 0 ↔ ∀ p ∈ m, f p = 0 := by
    intro f m
    induction m with
    | nil => simp [nsum_nil]
    | cons p m ih => rw [nsum_cons]; simp [ih]
  have hl : nsum (fun p : List α × List α => p.2.length) l ≠ 0 := by
    intro h
    obtain ⟨p, hp, hne⟩ := hr
    have := (hz _ _).1 h p hp
    simp at this; exact hne this
  obtain ⟨W, hW⟩ : ∃ W, W = nsum (fun p : List α × List α => p.2.length) l := ⟨_, rfl⟩
  obtain ⟨E, hE⟩ : ∃ E, E = nsum (fun p : List α × List α => ed p.1 p.2) l := ⟨_, rfl⟩
  have hv : werCorpusScore l = 1 - (E : Rat) / W := by
    unfold werCorpusScore
    rw [werCounts_eq]
    dsimp only
    rw [if_neg hl, hW, hE]
  rw [← hW] at hl ⊢
  rw [← hE]
  have hl0 : (0 : Rat) < W := by
    have : ((0 : Nat) : Rat) < (W : Rat) := Rat.natCast_lt_natCast.2 (by omega)
    exact this
  have hne : (W : Rat) ≠ 0 := by grind
  have hdm : (E : Rat) / W * W = E := Rat.div_mul_cancel hne
  have he0 : (0 : Rat) ≤ (E : Rat) := Rat.natCast_nonneg
  have hd0 : 0 ≤ (E : Rat) / W := div_nonneg he0 (by grind)
  have hprod : werCorpusScore l * W = W - (E : Rat) := by
    rw [hv, sub_mul, Rat.one_mul, hdm]
  refine ⟨hprod, by rw [hv]; grind, ?_⟩
  have hE0 : E = 0 ↔ ∀ p ∈ l, p.1 = p.2 := by
    rw [hE, hz]
    constructor
    · intro h p hp; exact (C116_word_errors p.1 p.2).2.2.1.1 (h p hp)
    · intro h p hp; exact (C116_word_errors p.1 p.2).2.2.1.2 (h p hp)
  rw [← hE0]
  constructor
  · intro h
    rw [h, Rat.one_mul] at hprod
    exact Rat.natCast_eq_zero_iff.1 (by grind)
  · intro h
    rw [hv, h]
    have : ((0 : Nat) : Rat) / (W : Rat) = 0 := by
      show (0 : Rat) / _ = 0
      exact zero_div _
    rw [this]; grind

/-- Non-vacuity, and the score can be negative. -/
example : ed [0, 1, 2] [0, 2, 3, 2] = 2 ∧ werSentScore [1, 2, 3] [0] = -2 ∧ werSentScore ([] : List Nat) [] = 0 ∧
    werCorpusScore [([0, 1], [0, 1]), ([1], [0, 2])] = 1 / 2 := by decide +kernel

end Thot.Metrics
