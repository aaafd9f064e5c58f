import Verif.PhrExtract.Model

/-! The cells for one target word. -/

namespace Thot.PhrExtract

open Thot.WordAlig (Mat)

theorem test_cset {i : Nat} (hi : i < 128) (c : Cov) (k : Nat) : test (cset c i) k = (test c k || decide (i = k)) := by
  simp [test, cset, BitVec.getLsbD_or, BitVec.getLsbD_twoPow, hi]

theorem test_creset {i : Nat} (hi : i < 128) (c : Cov) (k : Nat) : test (creset c i) k = (test c k && decide (i ≠ k)) := by
  simp only [test, creset, BitVec.getLsbD_and, BitVec.getLsbD_not, BitVec.getLsbD_twoPow]
  by_cases hk : k < 128
  · simp [hi, hk]
  · have : c.getLsbD k = false := BitVec.getLsbD_of_ge _ _ (by omega)
    simp [this]

theorem test_or (c d : Cov) (k : Nat) : test (c ||| d) k = (test c k || test d k) := by
  simp [test, BitVec.getLsbD_or]

theorem test_zero (k : Nat) : test 0 k = false := by simp [test]

theorem cov_ext {c d : Cov} (h : ∀ k < 128, test c k = test d k) : c = d :=
  BitVec.eq_of_getLsbD_eq fun i hi => h i hi

theorem test_ge {c : Cov} {k : Nat} (h : 128 ≤ k) : test c k = false := BitVec.getLsbD_of_ge _ _ h

/-- The context: a source sentence that is not empty, lengths below the limit and a matrix of the right size. -/
structure Ctx.Ok (e : Ctx) : Prop where
  ns2 : 2 ≤ e.nslen
  nsmax : e.nslen ≤ 101
  tmax : e.tlen ≤ 100
  dimI : e.alig.I = e.nslen - 1
  dimJ : e.alig.J = e.tlen

/-- Source position `k` (from one) is linked to target position `j` (from zero). -/
def lnk (e : Ctx) (k j : Nat) : Prop := 1 ≤ k ∧ k < e.nslen ∧ e.alig.m (k - 1) j ≠ 0

instance (e : Ctx) (k j : Nat) : Decidable (lnk e k j) := by unfold lnk; infer_instance

theorem reset_inner (f : Nat → Nat) (q : Nat → Prop) [DecidablePred q] (l : List Nat) (hf : ∀ j ∈ l, f j < 128) (c : Cov) (k : Nat) :
    test (l.foldl (fun c j => if q j then creset c (f j) else c) c) k = true ↔ test c k = true ∧ ∀ j ∈ l, q j → f j ≠ k := by
  induction l generalizing c with
  | nil => simp
  | cons a l ih =>
    simp only [List.foldl_cons]
    rw [ih (fun j hj => hf j (.tail _ hj))]
    have ha := hf a (.head _)
    by_cases hq : q a
    · simp only [hq, if_true, test_creset ha, Bool.and_eq_true, decide_eq_true_eq, List.mem_cons]
      constructor
      · rintro ⟨⟨h1, h2⟩, h3⟩
        refine ⟨h1, ?_⟩
        rintro j (rfl | hj)
        · exact fun _ => h2
        · exact h3 j hj
      · rintro ⟨h1, h2⟩
        exact ⟨⟨h1, h2 a (.inl rfl) hq⟩, fun j hj => h2 j (.inr hj)⟩
    · simp only [hq, if_false, List.mem_cons]
      constructor
      · rintro ⟨h1, h3⟩
        refine ⟨h1, ?_⟩
        rintro j (rfl | hj)
        · exact fun h => (hq h).elim
        · exact h3 j hj
      · rintro ⟨h1, h2⟩
        exact ⟨h1, fun j hj => h2 j (.inr hj)⟩

theorem reset_outer (f : Nat → Nat → Nat) (q : Nat → Nat → Prop) [∀ i, DecidablePred (q i)] (l : List Nat) (l2 : List Nat)
    (hf : ∀ i ∈ l, ∀ j ∈ l2, f i j < 128) (c : Cov) (k : Nat) :
    test (l.foldl (fun c i => l2.foldl (fun c j => if q i j then creset c (f i j) else c) c) c) k = true ↔
      test c k = true ∧ ∀ i ∈ l, ∀ j ∈ l2, q i j → f i j ≠ k := by
  induction l generalizing c with
  | nil => simp
  | cons a l ih =>
    simp only [List.foldl_cons]
    rw [ih (fun i hi => hf i (.tail _ hi)), reset_inner (f a) (q a) l2 (hf a (.head _))]
    constructor
    · rintro ⟨⟨h1, h2⟩, h3⟩
      refine ⟨h1, ?_⟩
      intro i hi
      rcases List.mem_cons.1 hi with rfl | hi
      · exact h2
      · exact h3 i hi
    · rintro ⟨h1, h2⟩
      exact ⟨⟨h1, h2 a (.head _)⟩, fun i hi => h2 i (.tail _ hi)⟩

theorem test_allOnes {k : Nat} : test (BitVec.allOnes 128) k = decide (k < 128) := by
  rw [test, BitVec.getLsbD_allOnes]

/-- A source word without links. -/
def zf (e : Ctx) (k : Nat) : Prop := ∀ j < e.tlen, ¬ lnk e k j

theorem zeroFert_spec {e : Ctx} (he : e.Ok) {k : Nat} (hk : k < e.nslen) : test (zeroFert e.alig) k = true ↔ 1 ≤ k ∧ zf e k := by
  have h1 := he.dimI
  have h2 := he.dimJ
  have h3 := he.nsmax
  simp only [zeroFert]
  rw [test_creset (by omega), Bool.and_eq_true, reset_outer (fun i _ => i + 1) (fun i j => e.alig.m i j ≠ 0), test_allOnes]
  · simp only [List.mem_range, decide_eq_true_eq, h1, h2, zf, lnk]
    constructor
    · rintro ⟨⟨_, h⟩, h0⟩
      refine ⟨by omega, ?_⟩
      rintro j hj ⟨hk1, hk2, hm⟩
      exact h (k - 1) (by omega) j hj hm (by omega)
    · rintro ⟨hk1, h⟩
      refine ⟨⟨by omega, ?_⟩, by omega⟩
      intro i hi j hj hm e'
      subst e'
      exact h j hj ⟨by omega, by omega, hm⟩
  · intro i hi j hj
    simp only [List.mem_range] at hi
    omega

theorem spurious_spec {e : Ctx} (he : e.Ok) {j : Nat} (hj : j < e.tlen) :
    test (spurious e.alig) j = true ↔ ∀ k, ¬ lnk e k j := by
  have h1 := he.dimI
  have h2 := he.dimJ
  have h3 := he.nsmax
  have h4 := he.tmax
  simp only [spurious]
  rw [reset_outer (fun _ j => j) (fun i j => e.alig.m i j ≠ 0), test_allOnes]
  · simp only [List.mem_range, decide_eq_true_eq, h1, h2, lnk]
    constructor
    · rintro ⟨_, h⟩ k ⟨hk1, hk2, hm⟩
      exact h (k - 1) (by omega) j hj hm rfl
    · intro h
      refine ⟨by omega, ?_⟩
      intro i hi j' hj' hm e'
      subst e'
      exact h (i + 1) ⟨by omega, by omega, hm⟩
  · intro i hi j hj
    simp only [List.mem_range] at hj
    omega

/-! The links of one target word. -/

def linkStep (e : Ctx) (y : Nat) (r : Cov × Nat × Nat) (i : Nat) : Cov × Nat × Nat :=
  if e.alig.m i y ≠ 0 then
    (cset r.1 (i + 1), if r.2.1 > i + 1 then i + 1 else r.2.1, if r.2.2 < i + 1 then i + 1 else r.2.2)
  else r

theorem linkLoop_eq (e : Ctx) (y : Nat) : linkLoop e y = (List.range (e.nslen - 1)).foldl (linkStep e y) (0, e.nslen, 0) := rfl

theorem link_prefix {e : Ctx} (he : e.Ok) (y n : Nat) (hn : n ≤ e.nslen - 1) :
    let r := (List.range n).foldl (linkStep e y) (0, e.nslen, 0)
    (∀ k, test r.1 k = true ↔ k ≤ n ∧ lnk e k y) ∧
    (((∀ k ≤ n, ¬ lnk e k y) ∧ r.2.1 = e.nslen ∧ r.2.2 = 0) ∨
      (r.2.1 ≤ n ∧ r.2.2 ≤ n ∧ lnk e r.2.1 y ∧ lnk e r.2.2 y ∧ ∀ k ≤ n, lnk e k y → r.2.1 ≤ k ∧ k ≤ r.2.2)) := by
  have h3 := he.nsmax
  induction n with
  | zero =>
    refine ⟨fun k => ?_, .inl ⟨fun k hk => ?_, rfl, rfl⟩⟩
    · simp only [List.range_zero, List.foldl_nil, test_zero]
      constructor
      · intro h; cases h
      · rintro ⟨h1, h2, _⟩; omega
    · rintro ⟨h2, _⟩; omega
  | succ n ih =>
    have ih := ih (by omega)
    simp only [List.range_succ, List.foldl_append, List.foldl_cons, List.foldl_nil] at ih ⊢
    generalize (List.range n).foldl (linkStep e y) (0, e.nslen, 0) = r at ih ⊢
    obtain ⟨h1, h2⟩ := ih
    by_cases hm : e.alig.m n y ≠ 0
    · have hl : lnk e (n + 1) y := ⟨by omega, by omega, hm⟩
      simp only [linkStep, if_pos hm]
      refine ⟨fun k => ?_, .inr ?_⟩
      · rw [test_cset (by omega), Bool.or_eq_true, h1]
        simp only [decide_eq_true_eq]
        constructor
        · rintro (⟨hk, h⟩ | h)
          · exact ⟨by omega, h⟩
          · subst h; exact ⟨by omega, hl⟩
        · rintro ⟨hk, h⟩
          by_cases e' : n + 1 = k
          · exact .inr e'
          · exact .inl ⟨by omega, h⟩
      · rcases h2 with ⟨hno, e1, e2⟩ | ⟨a1, a2, a3, a4, a5⟩
        · have g1 : r.2.1 > n + 1 := by omega
          have g2 : r.2.2 < n + 1 := by omega
          simp only [g1, g2, if_true]
          refine ⟨by omega, by omega, hl, hl, ?_⟩
          intro k hk hlk
          by_cases e' : k = n + 1
          · omega
          · exact (hno k (by omega) hlk).elim
        · have g1 : ¬ r.2.1 > n + 1 := by omega
          have g2 : r.2.2 < n + 1 := by omega
          simp only [g1, g2, if_true, if_false]
          refine ⟨by omega, by omega, a3, hl, ?_⟩
          intro k hk hlk
          by_cases e' : k = n + 1
          · omega
          · have := a5 k (by omega) hlk; omega
    · have hnl : ¬ lnk e (n + 1) y := fun h => hm h.2.2
      simp only [linkStep, if_neg hm]
      refine ⟨fun k => ?_, ?_⟩
      · rw [h1]
        constructor
        · rintro ⟨hk, h⟩; exact ⟨by omega, h⟩
        · rintro ⟨hk, h⟩
          by_cases e' : k = n + 1
          · subst e'; exact (hnl h).elim
          · exact ⟨by omega, h⟩
      · rcases h2 with ⟨hno, e1, e2⟩ | ⟨a1, a2, a3, a4, a5⟩
        · refine .inl ⟨fun k hk hlk => ?_, e1, e2⟩
          by_cases e' : k = n + 1
          · subst e'; exact hnl hlk
          · exact hno k (by omega) hlk
        · refine .inr ⟨by omega, by omega, a3, a4, fun k hk hlk => ?_⟩
          by_cases e' : k = n + 1
          · subst e'; exact (hnl hlk).elim
          · exact a5 k (by omega) hlk

/-- Leftmost and rightmost linked positions. -/
def lm (e : Ctx) (y : Nat) : Nat := (linkLoop e y).2.1
def rm (e : Ctx) (y : Nat) : Nat := (linkLoop e y).2.2

theorem link_spec {e : Ctx} (he : e.Ok) (y : Nat) :
    (∀ k, test (linkLoop e y).1 k = true ↔ lnk e k y) ∧
    (((∀ k, ¬ lnk e k y) ∧ lm e y = e.nslen ∧ rm e y = 0) ∨
      (lnk e (lm e y) y ∧ lnk e (rm e y) y ∧ ∀ k, lnk e k y → lm e y ≤ k ∧ k ≤ rm e y)) := by
  have h := link_prefix he y (e.nslen - 1) (Nat.le_refl _)
  simp only [← linkLoop_eq] at h
  refine ⟨fun k => ?_, ?_⟩
  · rw [h.1]
    constructor
    · exact fun h => h.2
    · intro h; exact ⟨by have := h.2.1; omega, h⟩
  · rcases h.2 with ⟨hno, e1, e2⟩ | ⟨a1, a2, a3, a4, a5⟩
    · exact .inl ⟨fun k hk => hno k (by have := hk.2.1; omega) hk, e1, e2⟩
    · exact .inr ⟨a3, a4, fun k hk => a5 k (by have := hk.2.1; omega) hk⟩

theorem fill_inner (q : Nat → Bool) (l : List Nat) (hf : ∀ j ∈ l, j < 128) (c : Cov) (k : Nat) :
    test (l.foldl (fun c i => if q i then cset c i else c) c) k = true ↔ test c k = true ∨ (k ∈ l ∧ q k = true) := by
  induction l generalizing c with
  | nil => simp
  | cons a l ih =>
    simp only [List.foldl_cons]
    rw [ih (fun j hj => hf j (.tail _ hj))]
    have ha := hf a (.head _)
    by_cases hq : q a = true
    · simp only [hq, if_true, test_cset ha, Bool.or_eq_true, decide_eq_true_eq, List.mem_cons]
      constructor
      · rintro ((h | h) | h)
        · exact .inl h
        · subst h; exact .inr ⟨.inl rfl, hq⟩
        · exact .inr ⟨.inr h.1, h.2⟩
      · rintro (h | ⟨h | h, h'⟩)
        · exact .inl (.inl h)
        · exact .inl (.inr h.symm)
        · exact .inr ⟨h, h'⟩
    · simp only [hq, List.mem_cons]
      constructor
      · rintro (h | h)
        · exact .inl h
        · exact .inr ⟨.inr h.1, h.2⟩
      · rintro (h | ⟨h | h, h'⟩)
        · exact .inl h
        · subst h; exact (hq h').elim
        · exact .inr ⟨h, h'⟩

/-- The smallest coverage of a target word. -/
def baseCov (e : Ctx) (y : Nat) : Cov := fillLoop e (linkLoop e y).1 (lm e y) (rm e y)

theorem base_spec {e : Ctx} (he : e.Ok) (y k : Nat) :
    test (baseCov e y) k = true ↔ lnk e k y ∨ (1 ≤ k ∧ k < e.nslen ∧ zf e k ∧ lm e y < k ∧ k < rm e y) := by
  have h3 := he.nsmax
  have h2 := he.ns2
  simp only [baseCov, fillLoop]
  rw [fill_inner (fun i => test (zeroFert e.alig) i && (decide (i > lm e y) && decide (i < rm e y))), (link_spec he y).1]
  · simp only [List.mem_range'_1, Bool.and_eq_true, decide_eq_true_eq]
    constructor
    · rintro (h | ⟨h, h1, h2, h3⟩)
      · exact .inl h
      · exact .inr ⟨h.1, by omega, ((zeroFert_spec he (by omega)).1 h1).2, h2, h3⟩
    · rintro (h | ⟨h, h1, h2, h3, h4⟩)
      · exact .inl h
      · exact .inr ⟨⟨h, by omega⟩, (zeroFert_spec he h1).2 ⟨h, h2⟩, h3, h4⟩
  · intro j hj
    simp only [List.mem_range'_1] at hj
    omega

theorem leftLoop_spec (z : Cov) (i : Nat) (hi : i < 128) (c : Cov) :
    let q := leftLoop z c i
    q.2 ≤ i ∧ (q.2 = 0 ∨ test z q.2 = false) ∧ (∀ m, q.2 < m → m ≤ i → test z m = true) ∧
      ∀ k, test q.1 k = true ↔ test c k = true ∨ (q.2 < k ∧ k ≤ i) := by
  induction i generalizing c with
  | zero =>
    refine ⟨Nat.le_refl _, .inl rfl, ?_, ?_⟩
    · intro m h1 h2; simp only [leftLoop] at h1; omega
    · intro k; simp only [leftLoop]
      exact ⟨.inl, fun h => h.resolve_right (by omega)⟩
  | succ i ih =>
    simp only [leftLoop]
    by_cases hz : test z (i + 1) = true
    · simp only [hz, if_true]
      obtain ⟨h1, h2, h3, h4⟩ := ih (by omega) (cset c (i + 1))
      refine ⟨by omega, h2, ?_, ?_⟩
      · intro m hm hm'
        by_cases e : m = i + 1
        · subst e; exact hz
        · exact h3 m hm (by omega)
      · intro k
        rw [h4, test_cset (by omega), Bool.or_eq_true, decide_eq_true_eq]
        constructor
        · rintro ((h | h) | h)
          · exact .inl h
          · right; omega
          · right; omega
        · rintro (h | h)
          · exact .inl (.inl h)
          · by_cases e : i + 1 = k
            · exact .inl (.inr e)
            · right; omega
    · simp only [hz]
      simp at hz
      refine ⟨by simp, .inr (by simpa using hz), ?_, ?_⟩
      · intro m h1 h2; simp at h1; omega
      · intro k; simp only [Bool.false_eq_true, if_false]
        exact ⟨.inl, fun h => h.resolve_right (by omega)⟩

theorem rightLoop_spec (z : Cov) (m i : Nat) (hi : i + m ≤ 128) (c : Cov) :
    let q := rightLoop z c i m
    i ≤ q.2 ∧ q.2 ≤ i + m ∧ (q.2 = i + m ∨ test z q.2 = false) ∧ (∀ p, i ≤ p → p < q.2 → test z p = true) ∧
      ∀ k, test q.1 k = true ↔ test c k = true ∨ (i ≤ k ∧ k < q.2) := by
  induction m generalizing c i with
  | zero =>
    refine ⟨Nat.le_refl _, Nat.le_refl _, .inl rfl, ?_, ?_⟩
    · intro m h1 h2; simp only [rightLoop] at h2; omega
    · intro k; simp only [rightLoop]
      exact ⟨.inl, fun h => h.resolve_right (by omega)⟩
  | succ m ih =>
    simp only [rightLoop]
    by_cases hz : test z i = true
    · simp only [hz, if_true]
      obtain ⟨h1, h2, h3, h4, h5⟩ := ih (i + 1) (by omega) (cset c i)
      refine ⟨by omega, by omega, by rcases h3 with h | h; exact .inl (by omega); exact .inr h, ?_, ?_⟩
      · intro p hm hm'
        by_cases e : p = i
        · subst e; exact hz
        · exact h4 p (by omega) hm'
      · intro k
        rw [h5, test_cset (by omega), Bool.or_eq_true, decide_eq_true_eq]
        constructor
        · rintro ((h | h) | h)
          · exact .inl h
          · right; omega
          · right; omega
        · rintro (h | h)
          · exact .inl (.inl h)
          · by_cases e : i = k
            · exact .inl (.inr e)
            · right; omega
    · simp only [hz]
      simp at hz
      refine ⟨by simp, by simp, .inr (by simpa using hz), ?_, ?_⟩
      · intro p h1 h2; simp at h2; omega
      · intro k; simp only [Bool.false_eq_true, if_false]
        exact ⟨.inl, fun h => h.resolve_right (by omega)⟩

/-- The coverages of the cell. -/
def covs (l : List CellAlig) : List Cov := l.map (·.cov)

/-- A target word with its unaligned neighbours on the left. -/
def leftCov (e : Ctx) (y : Nat) : Cov := (leftLoop (zeroFert e.alig) (baseCov e y) (lm e y - 1)).1
def rightCov (e : Ctx) (y : Nat) : Cov :=
  (rightLoop (zeroFert e.alig) (baseCov e y) (rm e y + 1) (e.nslen - (rm e y + 1))).1

theorem left_spec {e : Ctx} (he : e.Ok) {y : Nat} (hy : y < e.tlen) (hl : ∃ k, lnk e k y) (k : Nat) :
    test (leftCov e y) k = true ↔ test (baseCov e y) k = true ∨ (1 ≤ k ∧ k < lm e y ∧ ∀ m, k ≤ m → m < lm e y → zf e m) := by
  have h3 := he.nsmax
  obtain ⟨hl1, hl2, _⟩ := (link_spec he y).2.resolve_left (fun h => by obtain ⟨k, hk⟩ := hl; exact h.1 k hk)
  have hlm := hl1.2.1
  have hlm1 := hl1.1
  obtain ⟨a1, a2, a3, a4⟩ := leftLoop_spec (zeroFert e.alig) (lm e y - 1) (by omega) (baseCov e y)
  simp only [leftCov]
  generalize leftLoop (zeroFert e.alig) (baseCov e y) (lm e y - 1) = q at a1 a2 a3 a4
  rw [a4]
  constructor
  · rintro (h | h)
    · exact .inl h
    · refine .inr ⟨by omega, by omega, ?_⟩
      intro m hm hm'
      exact ((zeroFert_spec he (by omega)).1 (a3 m (by omega) (by omega))).2
  · rintro (h | ⟨h1, h2, h4⟩)
    · exact .inl h
    · refine .inr ⟨?_, by omega⟩
      apply Classical.byContradiction
      intro hc
      rcases a2 with h | h
      · omega
      · have := (zeroFert_spec he (k := q.2) (by omega)).2 ⟨by omega, h4 q.2 (by omega) (by omega)⟩
        rw [h] at this; cases this

theorem right_spec {e : Ctx} (he : e.Ok) {y : Nat} (hy : y < e.tlen) (hl : ∃ k, lnk e k y) (k : Nat) :
    test (rightCov e y) k = true ↔ test (baseCov e y) k = true ∨ (rm e y < k ∧ k < e.nslen ∧ ∀ m, rm e y < m → m ≤ k → zf e m) := by
  have h3 := he.nsmax
  obtain ⟨hl1, hl2, _⟩ := (link_spec he y).2.resolve_left (fun h => by obtain ⟨k, hk⟩ := hl; exact h.1 k hk)
  have hlm := hl2.2.1
  have hlm1 := hl2.1
  obtain ⟨a1, a0, a2, a3, a4⟩ := rightLoop_spec (zeroFert e.alig) (e.nslen - (rm e y + 1)) (rm e y + 1) (by omega) (baseCov e y)
  simp only [rightCov]
  generalize rightLoop (zeroFert e.alig) (baseCov e y) (rm e y + 1) (e.nslen - (rm e y + 1)) = q at a1 a0 a2 a3 a4
  rw [a4]
  constructor
  · rintro (h | h)
    · exact .inl h
    · refine .inr ⟨by omega, by omega, ?_⟩
      intro m hm hm'
      exact ((zeroFert_spec he (by omega)).1 (a3 m (by omega) (by omega))).2
  · rintro (h | ⟨h1, h2, h4⟩)
    · exact .inl h
    · refine .inr ⟨by omega, ?_⟩
      apply Classical.byContradiction
      intro hc
      rcases a2 with h | h
      · omega
      · have := (zeroFert_spec he (k := q.2) (by omega)).2 ⟨by omega, h4 q.2 (by omega) (by omega)⟩
        rw [h] at this; cases this

/-- What the cell of a target word contains. -/
inductive ExtMem (e : Ctx) (x y : Nat) : CellAlig → Prop
  | base : ExtMem e x y ⟨validCov e (baseCov e y) x y && decide (trgLenNonSpur e x y > 0), baseCov e y⟩
  | left (hl : ∃ k, lnk e k y) : ExtMem e x y ⟨validCov e (leftCov e y) x y, leftCov e y⟩
  | right (hl : ∃ k, lnk e k y) : ExtMem e x y ⟨validCov e (rightCov e y) x y, rightCov e y⟩

theorem externCell_eq (e : Ctx) (x y : Nat) : externCell e x y =
    [(⟨validCov e (baseCov e y) x y && decide (trgLenNonSpur e x y > 0), baseCov e y⟩ : CellAlig)] ++
    (if lm e y > 0 ∧ lm e y ≠ e.nslen then
      if test (zeroFert e.alig) ((leftLoop (zeroFert e.alig) (baseCov e y) (lm e y - 1)).2 + 1) then
        [⟨validCov e (leftCov e y) x y, leftCov e y⟩] else [] else []) ++
    (if rm e y < e.nslen - 1 ∧ rm e y ≠ 0 then
      if test (zeroFert e.alig) ((rightLoop (zeroFert e.alig) (baseCov e y) (rm e y + 1) (e.nslen - (rm e y + 1))).2 - 1) then
        [⟨validCov e (rightCov e y) x y, rightCov e y⟩] else [] else []) := rfl

theorem extern_mem {e : Ctx} (he : e.Ok) {x y : Nat} {a : CellAlig} (h : a ∈ externCell e x y) : ExtMem e x y a := by
  rw [externCell_eq] at h
  simp only [List.mem_append, List.mem_singleton] at h
  rcases h with (h | h) | h
  · subst h; exact .base
  · split at h
    · rename_i hc
      split at h
      · simp at h; subst h
        refine .left ⟨lm e y, ?_⟩
        rcases (link_spec he y).2 with h | h
        · exact (hc.2 h.2.1).elim
        · exact h.1
      · simp at h
    · simp at h
  · split at h
    · rename_i hc
      split at h
      · simp at h; subst h
        refine .right ⟨lm e y, ?_⟩
        rcases (link_spec he y).2 with h | h
        · exact (hc.2 h.2.2).elim
        · exact h.1
      · simp at h
    · simp at h

theorem base_mem (e : Ctx) (x y : Nat) : baseCov e y ∈ covs (externCell e x y) := by
  rw [externCell_eq]; simp [covs]

theorem left_mem {e : Ctx} (he : e.Ok) {x y : Nat} (hy : y < e.tlen) (hl : ∃ k, lnk e k y) : leftCov e y ∈ covs (externCell e x y) := by
  have h3 := he.nsmax
  obtain ⟨hl1, hl2, _⟩ := (link_spec he y).2.resolve_left (fun h => by obtain ⟨k, hk⟩ := hl; exact h.1 k hk)
  have hlm := hl1.2.1
  have hlm1 := hl1.1
  obtain ⟨a1, a2, a3, a4⟩ := leftLoop_spec (zeroFert e.alig) (lm e y - 1) (by omega) (baseCov e y)
  rw [externCell_eq]
  rw [if_pos (show lm e y > 0 ∧ lm e y ≠ e.nslen by omega)]
  by_cases ht : test (zeroFert e.alig) ((leftLoop (zeroFert e.alig) (baseCov e y) (lm e y - 1)).2 + 1) = true
  · simp [covs, ht]
  · have : leftCov e y = baseCov e y := by
      apply cov_ext
      intro k _
      rw [Bool.eq_iff_iff, leftCov, a4]
      constructor
      · rintro (h | h)
        · exact h
        · exact (ht (a3 _ (by omega) (by omega))).elim
      · exact .inl
    rw [this]; simp [covs]

theorem right_mem {e : Ctx} (he : e.Ok) {x y : Nat} (hy : y < e.tlen) (hl : ∃ k, lnk e k y) : rightCov e y ∈ covs (externCell e x y) := by
  have h3 := he.nsmax
  obtain ⟨hl1, hl2, _⟩ := (link_spec he y).2.resolve_left (fun h => by obtain ⟨k, hk⟩ := hl; exact h.1 k hk)
  have hlm := hl2.2.1
  have hlm1 := hl2.1
  obtain ⟨a1, a0, a2, a3, a4⟩ := rightLoop_spec (zeroFert e.alig) (e.nslen - (rm e y + 1)) (rm e y + 1) (by omega) (baseCov e y)
  rw [externCell_eq]
  have same : (∀ p, ¬ (rm e y + 1 ≤ p ∧ p < (rightLoop (zeroFert e.alig) (baseCov e y) (rm e y + 1) (e.nslen - (rm e y + 1))).2)) →
      rightCov e y = baseCov e y := by
    intro hno
    apply cov_ext
    intro k _
    rw [Bool.eq_iff_iff, rightCov, a4]
    constructor
    · rintro (h | h)
      · exact h
      · exact (hno k h).elim
    · exact .inl
  by_cases hr : rm e y < e.nslen - 1
  · rw [if_pos (show rm e y < e.nslen - 1 ∧ rm e y ≠ 0 by omega)]
    by_cases ht : test (zeroFert e.alig) ((rightLoop (zeroFert e.alig) (baseCov e y) (rm e y + 1) (e.nslen - (rm e y + 1))).2 - 1) = true
    · simp [covs, ht]
    · rw [same (fun p hp => ht (a3 _ (by omega) (by omega)))]; simp [covs]
  · rw [same (fun p hp => by omega)]; simp [covs]

theorem extern_nodup {e : Ctx} (he : e.Ok) {x y : Nat} (hy : y < e.tlen) : (covs (externCell e x y)).Nodup := by
  have h3 := he.nsmax
  rw [externCell_eq]
  rcases (link_spec he y).2 with ⟨hno, e1, e2⟩ | ⟨hl1, hl2, hb⟩
  · simp [covs, e1, e2]
  have hl : ∃ k, lnk e k y := ⟨_, hl1⟩
  have hlm := hl1.2.1
  have hlm1 := hl1.1
  have hrm := hl2.2.1
  have hlr := hb _ hl2
  have hbl : ∀ k, k < lm e y → test (baseCov e y) k = false := by
    intro k hk
    cases hh : test (baseCov e y) k with
    | false => rfl
    | true =>
      rcases (base_spec he y k).1 hh with h | h
      · have := hb k h; omega
      · omega
  have hbr : ∀ k, rm e y < k → test (baseCov e y) k = false := by
    intro k hk
    cases hh : test (baseCov e y) k with
    | false => rfl
    | true =>
      rcases (base_spec he y k).1 hh with h | h
      · have := hb k h; omega
      · omega
  obtain ⟨a1, a2, a3, a4⟩ := leftLoop_spec (zeroFert e.alig) (lm e y - 1) (by omega) (baseCov e y)
  obtain ⟨b1, b0, b2, b3, b4⟩ := rightLoop_spec (zeroFert e.alig) (e.nslen - (rm e y + 1)) (rm e y + 1) (by omega) (baseCov e y)
  have hzl : test (zeroFert e.alig) (lm e y) = false := by
    cases hh : test (zeroFert e.alig) (lm e y) with
    | false => rfl
    | true => exact ((((zeroFert_spec he hlm).1 hh).2 y hy) hl1).elim
  have hzr : test (zeroFert e.alig) (rm e y) = false := by
    cases hh : test (zeroFert e.alig) (rm e y) with
    | false => rfl
    | true => exact ((((zeroFert_spec he hrm).1 hh).2 y hy) hl2).elim
  -- the position next to the word distinguishes the coverages
  have hL : test (zeroFert e.alig) ((leftLoop (zeroFert e.alig) (baseCov e y) (lm e y - 1)).2 + 1) = true →
      test (leftCov e y) (lm e y - 1) = true ∧ test (baseCov e y) (lm e y - 1) = false ∧ test (rightCov e y) (lm e y - 1) = false := by
    intro ht
    have hne : (leftLoop (zeroFert e.alig) (baseCov e y) (lm e y - 1)).2 + 1 ≠ lm e y := by
      intro e'; rw [e', hzl] at ht; cases ht
    refine ⟨?_, hbl _ (by omega), ?_⟩
    · rw [leftCov, a4]; right; omega
    · cases hh : test (rightCov e y) (lm e y - 1) with
      | false => rfl
      | true =>
        rw [rightCov, b4] at hh
        rcases hh with h | h
        · rw [hbl _ (by omega)] at h; cases h
        · omega
  have hR : test (zeroFert e.alig) ((rightLoop (zeroFert e.alig) (baseCov e y) (rm e y + 1) (e.nslen - (rm e y + 1))).2 - 1) = true →
      test (rightCov e y) (rm e y + 1) = true ∧ test (baseCov e y) (rm e y + 1) = false := by
    intro ht
    have hne : (rightLoop (zeroFert e.alig) (baseCov e y) (rm e y + 1) (e.nslen - (rm e y + 1))).2 - 1 ≠ rm e y := by
      intro e'; rw [e', hzr] at ht; cases ht
    refine ⟨?_, hbr _ (by omega)⟩
    rw [rightCov, b4]; right; omega
  have d1 : ∀ {c d : Cov} {k : Nat}, test c k = true → test d k = false → c ≠ d := by
    intro c d k h1 h2 e'; subst e'; rw [h1] at h2; cases h2
  simp only [covs, List.map_append, List.map_cons, List.map_nil]
  by_cases c1 : lm e y > 0 ∧ lm e y ≠ e.nslen
  · by_cases c2 : test (zeroFert e.alig) ((leftLoop (zeroFert e.alig) (baseCov e y) (lm e y - 1)).2 + 1) = true
    · obtain ⟨g1, g2, g3⟩ := hL c2
      by_cases c3 : rm e y < e.nslen - 1 ∧ rm e y ≠ 0
      · by_cases c4 : test (zeroFert e.alig) ((rightLoop (zeroFert e.alig) (baseCov e y) (rm e y + 1) (e.nslen - (rm e y + 1))).2 - 1) = true
        · obtain ⟨g4, g5⟩ := hR c4
          simp [c1, c2, c3, c4, (d1 g1 g2).symm, d1 g1 g3, (d1 g4 g5).symm]
        · simp [c1, c2, c3, c4, (d1 g1 g2).symm]
      · simp [c1, c2, c3, (d1 g1 g2).symm]
    · by_cases c3 : rm e y < e.nslen - 1 ∧ rm e y ≠ 0
      · by_cases c4 : test (zeroFert e.alig) ((rightLoop (zeroFert e.alig) (baseCov e y) (rm e y + 1) (e.nslen - (rm e y + 1))).2 - 1) = true
        · obtain ⟨g4, g5⟩ := hR c4
          simp [c2, c3, c4, (d1 g4 g5).symm]
        · simp [c2, c3, c4]
      · simp [c2, c3]
  · exact (c1 ⟨by omega, by omega⟩).elim

end Thot.PhrExtract
