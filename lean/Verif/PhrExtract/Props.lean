import Verif.PhrExtract.Table

/-! Which phrase pairs are extracted from a pair of aligned sentences. -/

namespace Thot.PhrExtract

open Thot.WordAlig (Mat)

/-! Specification.  Positions are counted from one. -/

/-- A source segment and a target segment. -/
structure Span where
  x1 : Nat
  x2 : Nat
  y1 : Nat
  y2 : Nat
  deriving DecidableEq, Repr

/-- Source word `i` and target word `j` are linked. -/
def Linked (A : Mat) (i j : Nat) : Prop := 1 ≤ i ∧ i ≤ A.I ∧ 1 ≤ j ∧ j ≤ A.J ∧ A.m (i - 1) (j - 1) ≠ 0

/-- The segments are consistent with the alignment: no link goes from inside to outside, and some link is inside. -/
def Consistent (A : Mat) (p : Span) : Prop :=
  1 ≤ p.x1 ∧ p.x1 ≤ p.x2 ∧ p.x2 ≤ A.I ∧ 1 ≤ p.y1 ∧ p.y1 ≤ p.y2 ∧ p.y2 ≤ A.J ∧
  (∀ i j, Linked A i j → ((p.x1 ≤ i ∧ i ≤ p.x2) ↔ (p.y1 ≤ j ∧ j ≤ p.y2))) ∧
  ∃ i j, Linked A i j ∧ p.x1 ≤ i ∧ i ≤ p.x2

/-- The target word has some link. -/
def aligned (A : Mat) (j : Nat) : Bool := (List.range A.I).any fun i => A.m i (j - 1) != 0

/-- The limits on the lengths of the segments. -/
def Within (p : Pars) (A : Mat) (s : Span) : Prop :=
  s.x2 + 1 - s.x1 ≤ p.maxSrc ∧
  (if p.countSpurious then s.y2 + 1 - s.y1 else (List.range' s.y1 (s.y2 + 1 - s.y1)).countP (aligned A)) ≤ p.maxTrg

/-- In monotone mode the links of the words before (after) the source segment go to words before (after) the target segment. -/
def MonoOk (A : Mat) (s : Span) : Prop := ∀ i j, Linked A i j → (i < s.x1 → j < s.y1) ∧ (s.x2 < i → s.y2 < j)

/-- The source word has some link. -/
def SrcAligned (A : Mat) (i : Nat) : Prop := ∃ j, Linked A i j

/-- At most one of the ends of the source segment is extended with unaligned words, and then with all of them. -/
def OneSided (A : Mat) (s : Span) : Prop :=
  (SrcAligned A s.x2 ∧ (SrcAligned A s.x1 ∨ s.x1 = 1 ∨ SrcAligned A (s.x1 - 1))) ∨
  (SrcAligned A s.x1 ∧ (SrcAligned A s.x2 ∨ s.x2 = A.I ∨ SrcAligned A (s.x2 + 1)))

/-- The phrase pair of the segments; `ns` has the null word at position 0.  The weight is the sum of the values of the
links inside divided by their number. -/
def phraseOf (ns t : List String) (A : Mat) (s : Span) : Phrase :=
  { s := (ns.drop s.x1).take (s.x2 + 1 - s.x1)
    t := (t.drop (s.y1 - 1)).take (s.y2 + 1 - s.y1)
    num := ((List.range' s.x1 (s.x2 + 1 - s.x1)).map fun i => ((List.range' s.y1 (s.y2 + 1 - s.y1)).map fun j => A.m (i - 1) (j - 1)).sum).sum
    den := ((List.range' s.x1 (s.x2 + 1 - s.x1)).map fun i => (List.range' s.y1 (s.y2 + 1 - s.y1)).countP fun j => decide (A.m (i - 1) (j - 1) > 0)).sum }

/-! Completeness of the table. -/

theorem test_union (f : Nat → Cov) (p n k : Nat) : test (unionCov f p n) k = true ↔ ∃ j, p ≤ j ∧ j < p + n ∧ test (f j) k = true := by
  induction n generalizing p with
  | zero => simp only [unionCov, test_zero]; simp; omega
  | succ n ih =>
    simp only [unionCov, test_or, Bool.or_eq_true, ih]
    constructor
    · rintro (h | ⟨j, h1, h2, h3⟩)
      · exact ⟨p, by omega, by omega, h⟩
      · exact ⟨j, by omega, by omega, h3⟩
    · rintro ⟨j, h1, h2, h3⟩
      by_cases e : j = p
      · subst e; exact .inl h3
      · exact .inr ⟨j, by omega, by omega, h3⟩

theorem cellLen_first {e : Ctx} {x y : Nat} (hx : x < e.tlen) (hy : y < e.tlen) (hl : leftPos e x ≤ y) :
    cellLen e x (leftPos e x) ≤ cellLen e x y := by
  unfold cellLen
  split
  · simp only [trgLen]; omega
  · simp only [trgLenNonSpur]
    rw [show y + 1 - leftPos e x = (leftPos e x + 1 - leftPos e x) + (y - leftPos e x) by omega, ← List.range'_append_1, List.countP_append]
    omega

theorem cellLen_rest {e : Ctx} {x y : Nat} (hx : x < e.tlen) (hy : y < e.tlen) (hl : leftPos e x < y) :
    cellLen e (e.tlen - 2 - leftPos e x) y ≤ cellLen e x y := by
  have h1 : leftPos e (e.tlen - 2 - leftPos e x) = leftPos e x + 1 := by simp only [leftPos] at hl ⊢; omega
  unfold cellLen
  split
  · simp only [trgLen, h1]; omega
  · simp only [trgLenNonSpur, h1]
    rw [show y + 1 - leftPos e x = (y + 1 - (leftPos e x + 1)) + 1 by omega, List.range'_succ, List.countP_cons]
    omega

theorem table_complete {e : Ctx} (f : Nat → Cov) (n : Nat) : ∀ {x y : Nat}, x < e.tlen → y < e.tlen → leftPos e x ≤ y → y - leftPos e x = n →
    cellLen e x y ≤ e.pars.maxTrg → (∀ j, leftPos e x ≤ j → j ≤ y → f j ∈ covs (externCell e (e.tlen - j - 1) j)) →
    unionCov f (leftPos e x) (y + 1 - leftPos e x) ∈ covs (fillTable e x y) := by
  induction n with
  | zero =>
    intro x y hx hy hl hn hlen hf
    have hxy : x = e.tlen - y - 1 := by simp only [leftPos] at hl hn; omega
    have hly : leftPos e x = y := by omega
    rw [fill_cell hx hy hl, cell, if_pos hlen, if_pos hxy, hly, show y + 1 - y = 1 by omega]
    have := hf y (by omega) (by omega)
    rw [← hxy] at this
    simpa [unionCov] using this
  | succ n ih =>
    intro x y hx hy hl hn hlen hf
    have hlp : leftPos e x < e.tlen := by simp only [leftPos]; omega
    have h1 : leftPos e (e.tlen - 2 - leftPos e x) = leftPos e x + 1 := by simp only [leftPos] at hl hn ⊢; omega
    have hxy : ¬ x = e.tlen - y - 1 := by simp only [leftPos] at hl hn; omega
    have hfirst : f (leftPos e x) ∈ covs (fillTable e x (leftPos e x)) := by
      have hxx : x = e.tlen - leftPos e x - 1 := by simp only [leftPos]; omega
      rw [fill_cell hx hlp (Nat.le_refl _), cell, if_pos (Nat.le_trans (cellLen_first hx hy hl) hlen), if_pos hxx]
      have := hf (leftPos e x) (Nat.le_refl _) hl
      rwa [← hxx] at this
    have hrest := ih (x := e.tlen - 2 - leftPos e x) (y := y) (by omega) hy (by omega) (by omega)
      (Nat.le_trans (cellLen_rest hx hy (by omega)) hlen) (fun j hj hj' => hf j (by omega) hj')
    rw [h1] at hrest
    rw [fill_cell hx hy hl, cell, if_pos hlen, if_neg hxy, (inner_spec e (fillTable e) x y).2.2]
    refine ⟨leftPos e x, Nat.le_refl _, by omega, _, hfirst, _, hrest, ?_⟩
    rw [show y + 1 - leftPos e x = (y + 1 - (leftPos e x + 1)) + 1 by omega]
    rfl

/-! From the specification to the table. -/

theorem linked_iff {e : Ctx} (he : e.Ok) (i j : Nat) : Linked e.alig i j ↔ 1 ≤ j ∧ j ≤ e.tlen ∧ lnk e i (j - 1) := by
  have h1 := he.dimI; have h2 := he.dimJ; have h3 := he.ns2
  simp only [Linked, lnk, h1, h2]
  constructor
  · rintro ⟨a, b, c, d, f⟩; exact ⟨c, d, a, by omega, f⟩
  · rintro ⟨c, d, a, b, f⟩; exact ⟨a, by omega, c, d, f⟩

theorem zf_iff {e : Ctx} (he : e.Ok) (i : Nat) : zf e i ↔ ¬ SrcAligned e.alig i := by
  simp only [zf, SrcAligned, linked_iff he]
  constructor
  · rintro h ⟨j, h1, h2, h3⟩; exact h (j - 1) (by omega) h3
  · intro h j hj hl; exact h ⟨j + 1, by omega, by omega, hl⟩

/-- The source words next to `k` on the right: the first aligned one. -/
theorem next_aligned {e : Ctx} (n : Nat) : ∀ {k b : Nat}, k ≤ b → b - k = n → ¬ zf e b → ∃ m, k ≤ m ∧ m ≤ b ∧ ¬ zf e m ∧ ∀ i, k ≤ i → i < m → zf e i := by
  induction n with
  | zero =>
    intro k b h1 h2 h3
    exact ⟨b, h1, Nat.le_refl _, h3, fun i _ _ => by omega⟩
  | succ n ih =>
    intro k b h1 h2 h3
    by_cases hk : zf e k
    · obtain ⟨m, a1, a2, a3, a4⟩ := ih (k := k + 1) (b := b) (by omega) (by omega) h3
      refine ⟨m, by omega, a2, a3, fun i hi hi' => ?_⟩
      by_cases e' : i = k
      · subst e'; exact hk
      · exact a4 i (by omega) hi'
    · exact ⟨k, Nat.le_refl _, h1, hk, fun i _ _ => by omega⟩

theorem prev_aligned {e : Ctx} (n : Nat) : ∀ {k b : Nat}, b ≤ k → k - b = n → ¬ zf e b → ∃ m, b ≤ m ∧ m ≤ k ∧ ¬ zf e m ∧ ∀ i, m < i → i ≤ k → zf e i := by
  induction n with
  | zero =>
    intro k b h1 h2 h3
    exact ⟨b, Nat.le_refl _, h1, h3, fun i _ _ => by omega⟩
  | succ n ih =>
    intro k b h1 h2 h3
    by_cases hk : zf e k
    · obtain ⟨m, a1, a2, a3, a4⟩ := ih (k := k - 1) (b := b) (by omega) (by omega) h3
      refine ⟨m, a1, by omega, a3, fun i hi hi' => ?_⟩
      by_cases e' : i = k
      · subst e'; exact hk
      · exact a4 i hi (by omega)
    · exact ⟨k, h1, Nat.le_refl _, hk, fun i _ _ => by omega⟩

theorem not_zf_lnk {e : Ctx} {m : Nat} (h : ¬ zf e m) : ∃ j < e.tlen, lnk e m j := by
  simp only [zf, Classical.not_forall, Classical.not_not] at h
  obtain ⟨j, hj, h⟩ := h
  exact ⟨j, hj, h⟩

theorem lnk_not_zf {e : Ctx} {m j : Nat} (hj : j < e.tlen) (h : lnk e m j) : ¬ zf e m := fun hz => hz j hj h

theorem bounds {e : Ctx} (he : e.Ok) {k j : Nat} (h : lnk e k j) : lnk e (lm e j) j ∧ lnk e (rm e j) j ∧ lm e j ≤ k ∧ k ≤ rm e j := by
  obtain ⟨h1, h2, h3⟩ := (link_spec he j).2.resolve_left (fun h' => h'.1 k h)
  exact ⟨h1, h2, h3 k h⟩

/-- A consistent pair of segments, one end of the source segment free of unaligned words, is the union of coverages of cells. -/
theorem cover_left {e : Ctx} (he : e.Ok) {a b p q : Nat} (ha : 1 ≤ a) (hab : a ≤ b) (hb : b < e.nslen) (hq : q < e.tlen)
    (hcons : ∀ i j, j < e.tlen → lnk e i j → ((a ≤ i ∧ i ≤ b) ↔ (p ≤ j ∧ j ≤ q)))
    (hbz : ¬ zf e b) (haz : ¬ zf e a ∨ a = 1 ∨ ¬ zf e (a - 1)) :
    ∃ f : Nat → Cov, (∀ j, p ≤ j → j ≤ q → f j ∈ covs (externCell e (e.tlen - j - 1) j)) ∧
      ∀ k, (∃ j, p ≤ j ∧ j ≤ q ∧ test (f j) k = true) ↔ a ≤ k ∧ k ≤ b := by
  classical
  let f : Nat → Cov := fun j => if (∃ k, lnk e k j) ∧ ¬ (¬ zf e a ∧ lm e j = a) then leftCov e j else baseCov e j
  refine ⟨f, fun j h1 h2 => ?_, fun k => ⟨?_, ?_⟩⟩
  · simp only [f]
    split
    · rename_i h; exact left_mem he (by omega) h.1
    · exact base_mem _ _ _
  · rintro ⟨j, h1, h2, ht⟩
    have hj : j < e.tlen := by omega
    -- the words of the smallest coverage are between linked words
    have hbase : test (baseCov e j) k = true → a ≤ k ∧ k ≤ b := by
      intro hk
      rcases (base_spec he j k).1 hk with h | ⟨_, _, _, h3, h4⟩
      · exact (hcons k j hj h).2 ⟨h1, h2⟩
      · rcases (link_spec he j).2 with h' | ⟨g1, g2, _⟩
        · omega
        · have := (hcons _ j hj g1).2 ⟨h1, h2⟩
          have := (hcons _ j hj g2).2 ⟨h1, h2⟩
          omega
    simp only [f] at ht
    split at ht
    · rename_i hc
      rcases (left_spec he hj hc.1 k).1 ht with h | ⟨g1, g2, g3⟩
      · exact hbase h
      · obtain ⟨k', hk'⟩ := hc.1
        obtain ⟨l1, _, _, _⟩ := bounds he hk'
        have hin := (hcons _ j hj l1).2 ⟨h1, h2⟩
        refine ⟨?_, by omega⟩
        apply Classical.byContradiction
        intro hlt
        rcases haz with hz | hz | hz
        · by_cases hla : lm e j = a
          · exact hc.2 ⟨hz, hla⟩
          · exact hz (g3 a (by omega) (by omega))
        · omega
        · exact hz (g3 (a - 1) (by omega) (by omega))
    · exact hbase ht
  · rintro ⟨hk1, hk2⟩
    by_cases hz : zf e k
    · obtain ⟨m, m1, m2, m3, m4⟩ := next_aligned _ hk2 rfl hbz
      obtain ⟨j, hj, hl⟩ := not_zf_lnk m3
      have hpq := (hcons m j hj hl).1 ⟨by omega, m2⟩
      refine ⟨j, hpq.1, hpq.2, ?_⟩
      obtain ⟨l1, l2, l3, l4⟩ := bounds he hl
      have hkm : k < m := by
        rcases Nat.lt_or_ge k m with h | h
        · exact h
        · exact (m3 (by rw [show m = k by omega]; exact hz)).elim
      by_cases hlm : lm e j = m
      · have hf : f j = leftCov e j := by
          simp only [f]
          rw [if_pos]
          refine ⟨⟨m, hl⟩, ?_⟩
          rintro ⟨q1, q2⟩
          omega
        rw [hf, left_spec he hj ⟨m, hl⟩]
        right
        exact ⟨by omega, by omega, fun i hi hi' => m4 i hi (by omega)⟩
      · have hlt : lm e j < k := by
          rcases Nat.lt_or_ge (lm e j) k with h | h
          · exact h
          · exact (lnk_not_zf hj l1 (m4 _ h (by omega))).elim
        have hb' : test (baseCov e j) k = true := (base_spec he j k).2 (.inr ⟨by omega, by omega, hz, hlt, by omega⟩)
        simp only [f]
        split
        · rename_i hc; exact (left_spec he hj hc.1 k).2 (.inl hb')
        · exact hb'
    · obtain ⟨j, hj, hl⟩ := not_zf_lnk hz
      have hpq := (hcons k j hj hl).1 ⟨hk1, hk2⟩
      refine ⟨j, hpq.1, hpq.2, ?_⟩
      have hb' : test (baseCov e j) k = true := (base_spec he j k).2 (.inl hl)
      simp only [f]
      split
      · rename_i hc; exact (left_spec he hj hc.1 k).2 (.inl hb')
      · exact hb'

theorem cover_right {e : Ctx} (he : e.Ok) {a b p q : Nat} (ha : 1 ≤ a) (hab : a ≤ b) (hb : b < e.nslen) (hq : q < e.tlen)
    (hcons : ∀ i j, j < e.tlen → lnk e i j → ((a ≤ i ∧ i ≤ b) ↔ (p ≤ j ∧ j ≤ q)))
    (haz : ¬ zf e a) (hbz : ¬ zf e b ∨ b = e.nslen - 1 ∨ ¬ zf e (b + 1)) :
    ∃ f : Nat → Cov, (∀ j, p ≤ j → j ≤ q → f j ∈ covs (externCell e (e.tlen - j - 1) j)) ∧
      ∀ k, (∃ j, p ≤ j ∧ j ≤ q ∧ test (f j) k = true) ↔ a ≤ k ∧ k ≤ b := by
  classical
  let f : Nat → Cov := fun j => if (∃ k, lnk e k j) ∧ ¬ (¬ zf e b ∧ rm e j = b) then rightCov e j else baseCov e j
  refine ⟨f, fun j h1 h2 => ?_, fun k => ⟨?_, ?_⟩⟩
  · simp only [f]
    split
    · rename_i h; exact right_mem he (by omega) h.1
    · exact base_mem _ _ _
  · rintro ⟨j, h1, h2, ht⟩
    have hj : j < e.tlen := by omega
    have hbase : test (baseCov e j) k = true → a ≤ k ∧ k ≤ b := by
      intro hk
      rcases (base_spec he j k).1 hk with h | ⟨_, _, _, h3, h4⟩
      · exact (hcons k j hj h).2 ⟨h1, h2⟩
      · rcases (link_spec he j).2 with h' | ⟨g1, g2, _⟩
        · omega
        · have := (hcons _ j hj g1).2 ⟨h1, h2⟩
          have := (hcons _ j hj g2).2 ⟨h1, h2⟩
          omega
    simp only [f] at ht
    split at ht
    · rename_i hc
      rcases (right_spec he hj hc.1 k).1 ht with h | ⟨g1, g2, g3⟩
      · exact hbase h
      · obtain ⟨k', hk'⟩ := hc.1
        obtain ⟨_, l1, _, _⟩ := bounds he hk'
        have hin := (hcons _ j hj l1).2 ⟨h1, h2⟩
        refine ⟨by omega, ?_⟩
        apply Classical.byContradiction
        intro hlt
        rcases hbz with hz | hz | hz
        · by_cases hla : rm e j = b
          · exact hc.2 ⟨hz, hla⟩
          · exact hz (g3 b (by omega) (by omega))
        · omega
        · exact hz (g3 (b + 1) (by omega) (by omega))
    · exact hbase ht
  · rintro ⟨hk1, hk2⟩
    by_cases hz : zf e k
    · obtain ⟨m, m1, m2, m3, m4⟩ := prev_aligned _ hk1 rfl haz
      obtain ⟨j, hj, hl⟩ := not_zf_lnk m3
      have hpq := (hcons m j hj hl).1 ⟨m1, by omega⟩
      refine ⟨j, hpq.1, hpq.2, ?_⟩
      obtain ⟨l1, l2, l3, l4⟩ := bounds he hl
      have hkm : m < k := by
        rcases Nat.lt_or_ge m k with h | h
        · exact h
        · exact (m3 (by rw [show m = k by omega]; exact hz)).elim
      by_cases hlm : rm e j = m
      · have hf : f j = rightCov e j := by
          simp only [f]
          rw [if_pos]
          refine ⟨⟨m, hl⟩, ?_⟩
          rintro ⟨q1, q2⟩
          omega
        rw [hf, right_spec he hj ⟨m, hl⟩]
        right
        exact ⟨by omega, by omega, fun i hi hi' => m4 i (by omega) hi'⟩
      · have hlt : k < rm e j := by
          rcases Nat.lt_or_ge k (rm e j) with h | h
          · exact h
          · exact (lnk_not_zf hj l2 (m4 _ (by omega) h)).elim
        have hb' : test (baseCov e j) k = true := (base_spec he j k).2 (.inr ⟨by omega, by omega, hz, by omega, hlt⟩)
        simp only [f]
        split
        · rename_i hc; exact (right_spec he hj hc.1 k).2 (.inl hb')
        · exact hb'
    · obtain ⟨j, hj, hl⟩ := not_zf_lnk hz
      have hpq := (hcons k j hj hl).1 ⟨hk1, hk2⟩
      refine ⟨j, hpq.1, hpq.2, ?_⟩
      have hb' : test (baseCov e j) k = true := (base_spec he j k).2 (.inl hl)
      simp only [f]
      split
      · rename_i hc; exact (right_spec he hj hc.1 k).2 (.inl hb')
      · exact hb'

theorem aligned_iff {e : Ctx} (he : e.Ok) {j : Nat} (hj : j < e.tlen) : aligned e.alig (j + 1) = !test (spurious e.alig) j := by
  rw [Bool.eq_iff_iff]
  have h1 := he.dimI
  have h2 := he.ns2
  have := spurious_spec he hj
  simp only [aligned, List.any_eq_true, List.mem_range, h1, Bool.not_eq_true', ← Bool.not_eq_true, this]
  constructor
  · rintro ⟨i, hi, hm⟩ h
    exact h (i + 1) ⟨by omega, by omega, by simpa using hm⟩
  · intro h
    simp only [Classical.not_forall, Classical.not_not] at h
    obtain ⟨k, hk1, hk2, hm⟩ := h
    exact ⟨k - 1, by omega, by simpa using hm⟩

theorem cellLen_eq {e : Ctx} (he : e.Ok) {x y : Nat} (hx : x < e.tlen) (hy : y < e.tlen) (hl : leftPos e x ≤ y) :
    cellLen e x y = if e.pars.countSpurious then y + 2 - (e.tlen - x) else (List.range' (e.tlen - x) (y + 2 - (e.tlen - x))).countP (aligned e.alig) := by
  unfold cellLen
  split
  · simp only [trgLen, leftPos] at hl ⊢; omega
  · simp only [trgLenNonSpur]
    have e1 : e.tlen - x = leftPos e x + 1 := by simp only [leftPos]; omega
    rw [e1, show y + 2 - (leftPos e x + 1) = y + 1 - leftPos e x by omega]
    rw [List.range'_succ_left, List.countP_map]
    apply List.countP_congr
    intro j hj
    simp only [List.mem_range'_1] at hj
    simp only [Function.comp, aligned_iff he (show j < e.tlen by omega)]

/-! The phrase pair of a coverage. -/

theorem mapM_range' {α : Type} (l : List α) (n p : Nat) (h : p + n ≤ l.length) :
    (List.range' p n).mapM (fun z => l[z]?) = some ((l.drop p).take n) := by
  induction n generalizing p with
  | zero => simp
  | succ n ih =>
    have hp : p < l.length := by omega
    rw [List.range'_succ, List.mapM_cons, ih (p + 1) (by omega), List.getElem?_eq_getElem hp, List.drop_eq_getElem_cons hp]
    rfl

theorem filter_intv {e : Ctx} {c : Cov} {a b : Nat} (ha : 1 ≤ a) (hab : a ≤ b) (hb : b < e.nslen) (h : IsIntv c a b) :
    (List.range' 1 e.nslen).filter (test c) = List.range' a (b + 1 - a) := by
  have e1 : e.nslen = (a - 1) + ((b + 1 - a) + (e.nslen - b)) := by omega
  rw [show List.range' 1 e.nslen = List.range' 1 ((a - 1) + ((b + 1 - a) + (e.nslen - b))) by rw [← e1], ← List.range'_append_1, ← List.range'_append_1, List.filter_append, List.filter_append, show 1 + (a - 1) = a by omega]
  have f1 : (List.range' 1 (a - 1)).filter (test c) = [] := by
    rw [List.filter_eq_nil_iff]
    intro k hk ht
    simp only [List.mem_range'_1] at hk
    have := (h k).1 ht
    omega
  have f2 : (List.range' a (b + 1 - a)).filter (test c) = List.range' a (b + 1 - a) := by
    rw [List.filter_eq_self]
    intro k hk
    simp only [List.mem_range'_1] at hk
    exact (h k).2 (by omega)
  have f3 : (List.range' (a + (b + 1 - a)) (e.nslen - b)).filter (test c) = [] := by
    rw [List.filter_eq_nil_iff]
    intro k hk ht
    simp only [List.mem_range'_1] at hk
    have := (h k).1 ht
    omega
  rw [f1, f2, f3, List.nil_append, List.append_nil]

theorem mkPhrase_eq {e : Ctx} {ns t : List String} {x y a b : Nat} {c : Cov} (hns : e.nslen = ns.length) (ht : e.tlen = t.length)
    (hx : x < e.tlen) (hy : y < e.tlen) (hl : leftPos e x ≤ y) (ha : 1 ≤ a) (hab : a ≤ b) (hb : b < e.nslen) (h : IsIntv c a b) :
    mkPhrase e ns t x y c = some (phraseOf ns t e.alig ⟨a, b, e.tlen - x, y + 1⟩) := by
  have e1 : e.tlen - x = leftPos e x + 1 := by simp only [leftPos]; omega
  have e2 : y + 1 + 1 - (leftPos e x + 1) = y + 1 - leftPos e x := by omega
  simp only [mkPhrase, filter_intv ha hab hb h]
  rw [mapM_range' t _ _ (by omega), mapM_range' ns _ _ (by omega)]
  simp only [phraseOf, e1, e2, List.range'_succ_left, List.map_map, List.countP_map, Function.comp_def, Nat.add_sub_cancel]

/-! The list of entries. -/

theorem choose_list {α β γ : Type} (E : List α) (R : α → β → Prop) (mk : α → Option γ) (g : β → γ)
    (h : ∀ q ∈ E, ∃ b, R q b ∧ mk q = some (g b)) (inj : ∀ q ∈ E, ∀ q' ∈ E, ∀ b, R q b → R q' b → q = q') (nd : E.Nodup) :
    ∃ L : List β, L.Nodup ∧ E.mapM mk = some (L.map g) ∧ (∀ b ∈ L, ∃ q ∈ E, R q b) ∧ ∀ q ∈ E, ∃ b ∈ L, R q b := by
  induction E with
  | nil => exact ⟨[], by simp, by simp, by simp, by simp⟩
  | cons q E ih =>
    obtain ⟨L, h1, h2, h3, h4⟩ := ih (fun q hq => h q (.tail _ hq)) (fun q hq q' hq' => inj q (.tail _ hq) q' (.tail _ hq')) (List.nodup_cons.1 nd).2
    obtain ⟨b, hb, hm⟩ := h q (.head _)
    refine ⟨b :: L, ?_, ?_, ?_, ?_⟩
    · rw [List.nodup_cons]
      refine ⟨fun hbL => ?_, h1⟩
      obtain ⟨q', hq', hr⟩ := h3 b hbL
      have := inj q (.head _) q' (.tail _ hq') b hb hr
      subst this
      exact (List.nodup_cons.1 nd).1 hq'
    · rw [List.mapM_cons, hm, h2]; rfl
    · intro b' hb'
      rcases List.mem_cons.1 hb' with rfl | hb'
      · exact ⟨q, .head _, hb⟩
      · obtain ⟨q', hq', hr⟩ := h3 b' hb'; exact ⟨q', .tail _ hq', hr⟩
    · intro q' hq'
      rcases List.mem_cons.1 hq' with rfl | hq'
      · exact ⟨b, .head _, hb⟩
      · obtain ⟨b', hb', hr⟩ := h4 q' hq'; exact ⟨b', .tail _ hb', hr⟩

def entries (e : Ctx) : List ((Nat × Nat) × Cov) :=
  (cellOrder e.tlen).flatMap fun p => ((fillTable e p.1 p.2).filter (·.valid)).map fun a => (p, a.cov)

theorem mem_cellOrder {n x y : Nat} : (x, y) ∈ cellOrder n ↔ y < n ∧ n - y - 1 ≤ x ∧ x < n := by
  simp only [cellOrder, List.mem_flatMap, List.mem_range, List.mem_map, List.mem_range'_1, Prod.mk.injEq]
  constructor
  · rintro ⟨y', h1, x', h2, rfl, rfl⟩; omega
  · rintro ⟨h1, h2, h3⟩; exact ⟨y, h1, x, by omega, rfl, rfl⟩

theorem nodup_flatMap' {α β : Type} (l : List α) (f : α → List β) (hl : l.Nodup) (h1 : ∀ a ∈ l, (f a).Nodup)
    (h2 : ∀ a a' b, b ∈ f a → b ∈ f a' → a = a') : (l.flatMap f).Nodup := by
  induction l with
  | nil => simp
  | cons a l ih =>
    rw [List.flatMap_cons, List.nodup_append]
    rw [List.nodup_cons] at hl
    refine ⟨h1 a (.head _), ih hl.2 fun a ha => h1 a (.tail _ ha), ?_⟩
    intro b hb b' hb' e
    subst e
    obtain ⟨a', ha', hb'⟩ := List.mem_flatMap.1 hb'
    have := h2 a a' b hb hb'
    subst this
    exact hl.1 ha'

theorem nodup_map' {α β : Type} (l : List α) (f : α → β) (hl : l.Nodup) (h : ∀ a ∈ l, ∀ a' ∈ l, f a = f a' → a = a') : (l.map f).Nodup := by
  induction l with
  | nil => simp
  | cons a l ih =>
    rw [List.nodup_cons] at hl
    rw [List.map_cons, List.nodup_cons]
    refine ⟨?_, ih hl.2 fun a ha a' ha' => h a (.tail _ ha) a' (.tail _ ha')⟩
    intro hm
    obtain ⟨a', ha', he⟩ := List.mem_map.1 hm
    have := h a' (.tail _ ha') a (.head _) he
    subst this
    exact hl.1 ha'

theorem cellOrder_nodup (n : Nat) : (cellOrder n).Nodup := by
  apply nodup_flatMap' _ _ List.nodup_range
  · intro y _
    exact nodup_map' _ _ List.nodup_range' (fun a _ a' _ h => by simpa using h)
  · intro y y' b h1 h2
    obtain ⟨_, _, rfl⟩ := List.mem_map.1 h1
    obtain ⟨_, _, h⟩ := List.mem_map.1 h2
    simp only [Prod.mk.injEq] at h
    exact h.2.symm

theorem mem_entries {e : Ctx} (he : e.Ok) {x y : Nat} {c : Cov} : ((x, y), c) ∈ entries e ↔
    x < e.tlen ∧ y < e.tlen ∧ leftPos e x ≤ y ∧ c ∈ covs (fillTable e x y) ∧ validCov e c x y = true := by
  simp only [entries, List.mem_flatMap, List.mem_map, List.mem_filter, Prod.mk.injEq]
  constructor
  · rintro ⟨p, hp, a, ⟨ha, hv⟩, rfl, rfl⟩
    obtain ⟨g1, g2, g3⟩ := mem_cellOrder.1 hp
    have hl : leftPos e x ≤ y := by simp only [leftPos]; omega
    refine ⟨g3, g1, hl, List.mem_map.2 ⟨a, ha, rfl⟩, ?_⟩
    rw [← ((table_sound he _ g3 g1 hl rfl).2 a ha).2]; exact hv
  · rintro ⟨h1, h2, h3, h4, h5⟩
    obtain ⟨a, ha, rfl⟩ := List.mem_map.1 h4
    refine ⟨(x, y), mem_cellOrder.2 ⟨h2, by simp only [leftPos] at h3; omega, h1⟩, a, ⟨ha, ?_⟩, rfl, rfl⟩
    rw [((table_sound he _ h1 h2 h3 rfl).2 a ha).2]; exact h5

theorem entries_nodup {e : Ctx} (he : e.Ok) : (entries e).Nodup := by
  apply nodup_flatMap' _ _ (cellOrder_nodup _)
  · rintro ⟨x, y⟩ hp
    obtain ⟨g1, g2, g3⟩ := mem_cellOrder.1 hp
    have hl : leftPos e x ≤ y := by simp only [leftPos]; omega
    have hn := (table_sound he _ g3 g1 hl rfl).1
    have e1 : ((fillTable e x y).filter (·.valid)).map (fun a => ((x, y), a.cov)) =
        (((fillTable e x y).filter (·.valid)).map (·.cov)).map fun c => ((x, y), c) := by simp [List.map_map, Function.comp_def]
    simp only
    rw [e1]
    apply nodup_map'
    · exact hn.sublist (List.Sublist.map _ List.filter_sublist)
    · intro a _ a' _ h; simpa using h
  · intro p p' b h1 h2
    obtain ⟨_, _, rfl⟩ := List.mem_map.1 h1
    obtain ⟨_, _, h⟩ := List.mem_map.1 h2
    simp only [Prod.mk.injEq] at h
    exact h.1.symm

/-- The segments of an entry. -/
def SpanOf (e : Ctx) (q : (Nat × Nat) × Cov) (s : Span) : Prop :=
  s.y1 = e.tlen - q.1.1 ∧ s.y2 = q.1.2 + 1 ∧ s.x1 ≤ s.x2 ∧ IsIntv q.2 s.x1 s.x2

theorem intv_unique {c : Cov} {a b a' b' : Nat} (hab : a ≤ b) (hab' : a' ≤ b') (h : IsIntv c a b) (h' : IsIntv c a' b') : a = a' ∧ b = b' := by
  have q1 := (h' a).1 ((h a).2 ⟨Nat.le_refl _, hab⟩)
  have q2 := (h' b).1 ((h b).2 ⟨hab, Nat.le_refl _⟩)
  have q3 := (h a').1 ((h' a').2 ⟨Nat.le_refl _, hab'⟩)
  have q4 := (h b').1 ((h' b').2 ⟨hab', Nat.le_refl _⟩)
  omega

theorem entry_span {e : Ctx} (he : e.Ok) {q : (Nat × Nat) × Cov} (hq : q ∈ entries e) :
    ∃ s, SpanOf e q s ∧ 1 ≤ s.x1 ∧ s.x2 < e.nslen := by
  obtain ⟨⟨x, y⟩, c⟩ := q
  obtain ⟨h1, h2, h3, h4, h5⟩ := (mem_entries he).1 hq
  obtain ⟨a', ha', rfl⟩ := List.mem_map.1 h4
  have hok := ((table_sound he _ h1 h2 h3 rfl).2 a' ha').1
  obtain ⟨a, b, g1, g2, g3, g4, _⟩ := (validCov_iff he h1 h2 hok.range).1 h5
  exact ⟨⟨a, b, e.tlen - x, y + 1⟩, ⟨rfl, rfl, g2, g4⟩, g1, by simp only; omega⟩

theorem entry_ok {e : Ctx} (he : e.Ok) {q : (Nat × Nat) × Cov} (hq : q ∈ entries e) {s : Span} (hs : SpanOf e q s) :
    Consistent e.alig s ∧ Within e.pars e.alig s ∧ (e.pars.monotone = true → MonoOk e.alig s) := by
  obtain ⟨⟨x, y⟩, c⟩ := q
  obtain ⟨x1, x2, y1, y2⟩ := s
  obtain ⟨hy1, hy2, hx, hi⟩ := hs
  simp only at hy1 hy2 hx hi
  subst hy1 hy2
  obtain ⟨h1, h2, h3, h4, h5⟩ := (mem_entries he).1 hq
  obtain ⟨a', ha', rfl⟩ := List.mem_map.1 h4
  have hok := ((table_sound he _ h1 h2 h3 rfl).2 a' ha').1
  obtain ⟨a, b, g1, g2, g3, g4, g5, g6, g7⟩ := (validCov_iff he h1 h2 hok.range).1 h5
  obtain ⟨rfl, rfl⟩ := intv_unique hx g2 hi g4
  have hI := he.dimI; have hJ := he.dimJ; have hn := he.ns2
  have hcell : ∀ j, 1 ≤ j → (inCell e (j - 1) x y = true ↔ e.tlen - x ≤ j ∧ j ≤ y + 1) := by
    intro j hj
    simp only [inCell_iff, leftPos]
    omega
  have hout : ∀ i j, Linked e.alig i j → inCell e (j - 1) x y = false →
      (i < x1 ∨ x2 < i) ∧ (e.pars.monotone = true → (i < x1 → j - 1 ≤ y) ∧ (x1 ≤ i → leftPos e x ≤ j - 1)) := by
    intro i j hl hc
    obtain ⟨l1, l2, l3⟩ := (linked_iff he i j).1 hl
    exact g7 (j - 1) (by omega) hc i l3
  have hcons : ∀ i j, Linked e.alig i j → ((x1 ≤ i ∧ i ≤ x2) ↔ (e.tlen - x ≤ j ∧ j ≤ y + 1)) := by
    intro i j hl
    obtain ⟨l1, l2, l3⟩ := (linked_iff he i j).1 hl
    rw [← hcell j l1]
    constructor
    · intro hin
      cases hc : inCell e (j - 1) x y with
      | true => rfl
      | false => have := (hout i j hl hc).1; omega
    · intro hc
      exact (hi i).1 (hok.links i (j - 1) hc l3)
  refine ⟨⟨g1, hx, by dsimp only; omega, by dsimp only; omega, by simp only [leftPos] at h3 ⊢; omega, by dsimp only; omega, hcons, ?_⟩, ⟨by dsimp only; omega, ?_⟩, ?_⟩
  · obtain ⟨i, j, q1, q2⟩ := hok.some_ x1 ((hi x1).2 ⟨Nat.le_refl _, hx⟩)
    have hjy : j ≤ y := (inCell_iff.1 q1).1
    have hl : Linked e.alig i (j + 1) := (linked_iff he i (j + 1)).2 ⟨by omega, by omega, q2⟩
    exact ⟨i, j + 1, hl, (hi i).1 (hok.links i j q1 q2)⟩
  · have hlen : cellLen e x y ≤ e.pars.maxTrg := by
      rcases Nat.lt_or_ge e.pars.maxTrg (cellLen e x y) with h | h
      · rw [fill_cell h1 h2 h3, cell, if_neg (by omega)] at ha'
        cases ha'
      · exact h
    rw [cellLen_eq he h1 h2 h3] at hlen
    exact hlen
  · intro hm i j hl
    obtain ⟨l1, l2, l3⟩ := (linked_iff he i j).1 hl
    have hc := hcons i j hl
    have hce := hcell j l1
    simp only at hc ⊢
    refine ⟨fun hlt => ?_, fun hlt => ?_⟩
    · cases hcc : inCell e (j - 1) x y with
      | true => have := hc.2 (hce.1 hcc); omega
      | false =>
        have h8 := ((hout i j hl hcc).2 hm).1 hlt
        have : ¬ (e.tlen - x ≤ j ∧ j ≤ y + 1) := fun h => by rw [hce.2 h] at hcc; cases hcc
        omega
    · cases hcc : inCell e (j - 1) x y with
      | true => have := hc.2 (hce.1 hcc); omega
      | false =>
        have h8 := ((hout i j hl hcc).2 hm).2 (by omega)
        have : ¬ (e.tlen - x ≤ j ∧ j ≤ y + 1) := fun h => by rw [hce.2 h] at hcc; cases hcc
        simp only [leftPos] at h8
        omega

theorem entry_complete {e : Ctx} (he : e.Ok) {s : Span} (hc : Consistent e.alig s) (hw : Within e.pars e.alig s)
    (hm : e.pars.monotone = true → MonoOk e.alig s) (ho : OneSided e.alig s)
    (hwh : s.y1 = 1 → s.y2 = e.alig.J → s.x1 = 1 ∧ s.x2 = e.alig.I) : ∃ q ∈ entries e, SpanOf e q s := by
  obtain ⟨x1, x2, y1, y2⟩ := s
  obtain ⟨c1, c2, c3, c4, c5, c6, c7, c8⟩ := hc
  simp only at c1 c2 c3 c4 c5 c6 c7 c8 hwh
  have hI := he.dimI; have hJ := he.dimJ; have hn := he.ns2
  have hlp : leftPos e (e.tlen - y1) = y1 - 1 := by simp only [leftPos]; omega
  have hcons : ∀ i j, j < e.tlen → lnk e i j → ((x1 ≤ i ∧ i ≤ x2) ↔ (y1 - 1 ≤ j ∧ j ≤ y2 - 1)) := by
    intro i j hj hl
    rw [c7 i (j + 1) ((linked_iff he i (j + 1)).2 ⟨by omega, by omega, hl⟩)]
    omega
  have hcov : ∃ f : Nat → Cov, (∀ j, y1 - 1 ≤ j → j ≤ y2 - 1 → f j ∈ covs (externCell e (e.tlen - j - 1) j)) ∧
      ∀ k, (∃ j, y1 - 1 ≤ j ∧ j ≤ y2 - 1 ∧ test (f j) k = true) ↔ x1 ≤ k ∧ k ≤ x2 := by
    have hz : ∀ i, ¬ zf e i ↔ SrcAligned e.alig i := fun i => by rw [zf_iff he, Classical.not_not]
    rcases ho with ⟨o1, o2⟩ | ⟨o1, o2⟩
    · exact cover_left he c1 c2 (by omega) (by omega) hcons ((hz _).2 o1) (by rw [hz, hz]; exact o2)
    · refine cover_right he c1 c2 (by omega) (by omega) hcons ((hz _).2 o1) ?_
      rw [hz, hz, ← hI]; exact o2
  obtain ⟨f, f1, f2⟩ := hcov
  obtain ⟨x, hxd⟩ : ∃ x, x = e.tlen - y1 := ⟨_, rfl⟩
  obtain ⟨y, hyd⟩ : ∃ y, y = y2 - 1 := ⟨_, rfl⟩
  rw [← hxd] at hlp
  have hx : x < e.tlen := by omega
  have hy : y < e.tlen := by omega
  have hl : leftPos e x ≤ y := by omega
  have hlen : cellLen e x y ≤ e.pars.maxTrg := by
    rw [cellLen_eq he hx hy hl, show e.tlen - x = y1 by omega, show y + 2 - y1 = y2 + 1 - y1 by omega]
    exact hw.2
  have hmem := table_complete (e := e) f _ hx hy hl rfl hlen (by rw [hlp, hyd]; exact f1)
  have hint : IsIntv (unionCov f (leftPos e x) (y + 1 - leftPos e x)) x1 x2 := by
    intro k
    rw [test_union, ← f2 k]
    constructor
    · rintro ⟨j, j1, j2, j3⟩; exact ⟨j, by omega, by omega, j3⟩
    · rintro ⟨j, j1, j2, j3⟩; exact ⟨j, by omega, by omega, j3⟩
  refine ⟨((x, y), unionCov f (leftPos e x) (y + 1 - leftPos e x)), ?_, by simp only; omega, by simp only; omega, c2, hint⟩
  rw [mem_entries he]
  refine ⟨hx, hy, hl, hmem, ?_⟩
  rw [validCov_iff he hx hy (fun k hk => by have := (hint k).1 hk; omega)]
  have hw1 := hw.1
  simp only at hw1
  refine ⟨x1, x2, c1, c2, by omega, hint, by omega, ?_, ?_⟩
  · rintro ⟨w1, w2⟩
    have := hwh (by omega) (by omega)
    omega
  · intro j hj hnc i hli
    have hL : Linked e.alig i (j + 1) := (linked_iff he i (j + 1)).2 ⟨by omega, by omega, hli⟩
    have hnc' : ¬ (j ≤ y ∧ leftPos e x ≤ j) := fun h => by rw [inCell_iff.2 h] at hnc; cases hnc
    have hnx : ¬ (x1 ≤ i ∧ i ≤ x2) := fun h => by have := (hcons i j hj hli).1 h; omega
    refine ⟨by omega, fun hmo => ?_⟩
    have hmo := hm hmo i (j + 1) hL
    simp only at hmo
    refine ⟨fun h => ?_, fun h => ?_⟩
    · have := hmo.1 h; omega
    · have := hmo.2 (by omega); omega

theorem extract_spec (p : Pars) (ns t : List String) (A : Mat) (h2 : 2 ≤ ns.length) (hn : ns.length ≤ 101) (ht : t.length ≤ 100)
    (hI : A.I = ns.length - 1) (hJ : A.J = t.length) :
    ∃ L : List Span, L.Nodup ∧ extract p ns t A = some (L.map (phraseOf ns t A)) ∧
      (∀ s ∈ L, Consistent A s ∧ Within p A s ∧ (p.monotone = true → MonoOk A s)) ∧
      ∀ s, Consistent A s → Within p A s → (p.monotone = true → MonoOk A s) → OneSided A s →
        (s.y1 = 1 → s.y2 = A.J → s.x1 = 1 ∧ s.x2 = A.I) → s ∈ L := by
  have hne : ns ≠ [] := by intro e; subst e; simp at h2
  have hex : extract p ns t A = createVector ⟨ns.length, t.length, A, p⟩ ns t (fillTable ⟨ns.length, t.length, A, p⟩) := by
    unfold extract
    rw [if_neg]
    simp only [maxSentLen, hne, false_or]
    omega
  rw [hex]
  generalize he' : (⟨ns.length, t.length, A, p⟩ : Ctx) = e
  have e1 : e.nslen = ns.length := by subst he'; rfl
  have e2 : e.tlen = t.length := by subst he'; rfl
  have e3 : e.alig = A := by subst he'; rfl
  have e4 : e.pars = p := by subst he'; rfl
  have he : e.Ok := ⟨by omega, by omega, by omega, by rw [e3]; omega, by rw [e3]; omega⟩
  subst e3 e4
  have hcv : createVector e ns t (fillTable e) = (entries e).mapM fun q => mkPhrase e ns t q.1.1 q.1.2 q.2 := rfl
  rw [hcv]
  obtain ⟨L, l1, l2, l3, l4⟩ := choose_list (entries e) (SpanOf e) (fun q => mkPhrase e ns t q.1.1 q.1.2 q.2) (phraseOf ns t e.alig)
    (fun q hq => by
      obtain ⟨s, hs, s1, s2⟩ := entry_span he hq
      refine ⟨s, hs, ?_⟩
      obtain ⟨⟨x, y⟩, c⟩ := q
      obtain ⟨x1, x2, y1, y2⟩ := s
      obtain ⟨q1, q2, q3, q4⟩ := hs
      simp only at q1 q2 q3 q4 s1 s2
      subst q1 q2
      obtain ⟨h1, h2, h3, _⟩ := (mem_entries he).1 hq
      exact mkPhrase_eq e1 e2 h1 h2 h3 s1 q3 s2 q4)
    (fun q hq q' hq' b r r' => by
      obtain ⟨⟨x, y⟩, c⟩ := q
      obtain ⟨⟨x', y'⟩, c'⟩ := q'
      obtain ⟨q1, q2, q3, q4⟩ := r
      obtain ⟨r1, r2, r3, r4⟩ := r'
      simp only at q1 q2 q3 q4 r1 r2 r3 r4
      obtain ⟨h1, _⟩ := (mem_entries he).1 hq
      obtain ⟨h1', _⟩ := (mem_entries he).1 hq'
      have : c = c' := cov_ext fun k _ => by rw [Bool.eq_iff_iff]; exact (q4 k).trans (r4 k).symm
      subst this
      have hx : x = x' := by omega
      have hy : y = y' := by omega
      subst hx hy
      rfl)
    (entries_nodup he)
  refine ⟨L, l1, l2, ?_, ?_⟩
  · intro s hs
    obtain ⟨q, hq, hr⟩ := l3 s hs
    exact entry_ok he hq hr
  · intro s c1 c2 c3 c4 c5
    obtain ⟨q, hq, hr⟩ := entry_complete he c1 c2 c3 c4 c5
    obtain ⟨s', hs', hr'⟩ := l4 q hq
    obtain ⟨x1, x2, y1, y2⟩ := s
    obtain ⟨x1', x2', y1', y2'⟩ := s'
    obtain ⟨q1, q2, q3, q4⟩ := hr
    obtain ⟨r1, r2, r3, r4⟩ := hr'
    simp only at q1 q2 q3 q4 r1 r2 r3 r4
    obtain ⟨rfl, rfl⟩ := intv_unique q3 r3 q4 r4
    have hy1 : y1 = y1' := by omega
    have hy2 : y2 = y2' := by omega
    subst hy1 hy2
    exact hs'

/-! C74: what is extracted is consistent. -/

/-- C74: every extracted phrase pair comes from a consistent pair of segments within the length limits (monotone if that is
asked for), and each pair of segments gives its phrase pair once.  Missing: an empty source sentence. -/
theorem C74_extraction_sound_partial (p : Pars) (ns t : List String) (A : Mat) (h2 : 2 ≤ ns.length)
    (hI : A.I = ns.length - 1) (hJ : A.J = t.length) :
    ∃ L : List Span, L.Nodup ∧ extract p ns t A = some (L.map (phraseOf ns t A)) ∧
      ∀ s ∈ L, Consistent A s ∧ Within p A s ∧ (p.monotone = true → MonoOk A s) := by
  by_cases hn : ns.length ≤ 101 ∧ t.length ≤ 100
  · obtain ⟨L, h1, h3, h4, _⟩ := extract_spec p ns t A h2 hn.1 hn.2 hI hJ
    exact ⟨L, h1, h3, h4⟩
  · refine ⟨[], by simp, ?_, by simp⟩
    unfold extract
    rw [if_pos (by simp only [maxSentLen]; omega)]
    rfl

/-- The statement for every source sentence, including the empty one (only the null word). -/
def C74_full : Prop :=
  ∀ (p : Pars) (ns t : List String) (A : Mat), 1 ≤ ns.length → A.I = ns.length - 1 → A.J = t.length →
    ∃ L : List Span, L.Nodup ∧ extract p ns t A = some (L.map (phraseOf ns t A)) ∧
      ∀ s ∈ L, Consistent A s ∧ Within p A s ∧ (p.monotone = true → MonoOk A s)

def exEmpty : Mat := { I := 0, J := 2, m := fun _ _ => 0 }

/-- From an empty source sentence and the target `x y` the phrase pair (empty, `x y`) is extracted, with weight `0/0`. -/
theorem C74_counterexample : ¬ C74_full := by
  intro h
  obtain ⟨L, _, h1, h2⟩ := h ⟨4, true, true, false⟩ ["NULL"] ["x", "y"] exEmpty (by decide) rfl rfl
  have h3 : extract ⟨4, true, true, false⟩ ["NULL"] ["x", "y"] exEmpty = some [⟨[], ["x", "y"], 0, 0⟩] := by decide +kernel
  rw [h3] at h1
  cases L with
  | nil => simp at h1
  | cons s L =>
    obtain ⟨⟨a, b, c, _⟩, _⟩ := h2 s (.head _)
    have : exEmpty.I = 0 := rfl
    omega

/-! C75: which consistent pairs of segments are extracted. -/

/-- C75: a consistent pair of segments within the limits gives a phrase pair if at most one end of its source segment has
unaligned words, and then all of them up to the next aligned word; when the target segment is the whole sentence, the
source segment must be the whole sentence. -/
theorem C75_extraction_complete_partial (p : Pars) (ns t : List String) (A : Mat) (h2 : 2 ≤ ns.length)
    (hn : ns.length - 1 ≤ 100) (ht : t.length ≤ 100) (hI : A.I = ns.length - 1) (hJ : A.J = t.length) :
    ∃ L : List Span, L.Nodup ∧ extract p ns t A = some (L.map (phraseOf ns t A)) ∧
      ∀ s, Consistent A s → Within p A s → (p.monotone = true → MonoOk A s) → OneSided A s →
        (s.y1 = 1 → s.y2 = A.J → s.x1 = 1 ∧ s.x2 = A.I) → s ∈ L := by
  obtain ⟨L, h1, h3, _, h4⟩ := extract_spec p ns t A h2 (by omega) ht hI hJ
  exact ⟨L, h1, h3, h4⟩

/-- The statement for all consistent pairs of segments. -/
def C75_full : Prop :=
  ∀ (p : Pars) (ns t : List String) (A : Mat), 2 ≤ ns.length → ns.length - 1 ≤ 100 → t.length ≤ 100 → A.I = ns.length - 1 → A.J = t.length →
    ∃ L : List Span, L.Nodup ∧ extract p ns t A = some (L.map (phraseOf ns t A)) ∧
      ∀ s, Consistent A s → Within p A s → (p.monotone = true → MonoOk A s) → s ∈ L

/-- Source `a b c`, target `x y`, the only link is `b`-`x`. -/
def exMid : Mat := { I := 3, J := 2, m := fun i j => if i = 1 ∧ j = 0 then 1 else 0 }

theorem exMid_linked {i j : Nat} : Linked exMid i j ↔ i = 2 ∧ j = 1 := by
  simp only [Linked, exMid]
  constructor
  · rintro ⟨h1, h2, h3, h4, h5⟩
    split at h5 <;> omega
  · rintro ⟨rfl, rfl⟩; simp

/-- The pair (`a b c`, `x`) is consistent and is not extracted. -/
theorem C75_counterexample : ¬ C75_full := by
  intro h
  obtain ⟨L, _, h1, h2⟩ := h ⟨4, true, true, false⟩ ["NULL", "a", "b", "c"] ["x", "y"] exMid (by decide) (by decide) (by decide) rfl rfl
  have hL := h2 ⟨1, 3, 1, 1⟩ ⟨by decide, by decide, by decide, by decide, by decide, by decide,
    fun i j hl => by have := exMid_linked.1 hl; simp only; omega, 2, 1, exMid_linked.2 ⟨rfl, rfl⟩, by decide, by decide⟩
    ⟨by decide, by decide +kernel⟩ (by intro h; cases h)
  have hmem : phraseOf ["NULL", "a", "b", "c"] ["x", "y"] exMid ⟨1, 3, 1, 1⟩ ∈ L.map (phraseOf ["NULL", "a", "b", "c"] ["x", "y"] exMid) :=
    List.mem_map.2 ⟨_, hL, rfl⟩
  have h3 : ∃ out, extract ⟨4, true, true, false⟩ ["NULL", "a", "b", "c"] ["x", "y"] exMid = some out ∧
    phraseOf ["NULL", "a", "b", "c"] ["x", "y"] exMid ⟨1, 3, 1, 1⟩ ∉ out := ⟨_, rfl, by decide +kernel⟩
  obtain ⟨out, h3, h4⟩ := h3
  rw [h3] at h1
  cases h1
  exact h4 hmem

/-! C76: the weight and the lengths. -/

theorem sum_le_sum {α : Type} (l : List α) (f g : α → Nat) (h : ∀ a ∈ l, f a ≤ g a) : (l.map f).sum ≤ (l.map g).sum := by
  induction l with
  | nil => simp
  | cons a l ih =>
    simp only [List.map_cons, List.sum_cons]
    have := h a (.head _)
    have := ih fun a ha => h a (.tail _ ha)
    omega

theorem sum_pos {α : Type} (l : List α) (f : α → Nat) (a : α) (ha : a ∈ l) (h : 0 < f a) : 0 < (l.map f).sum := by
  induction l with
  | nil => cases ha
  | cons b l ih =>
    simp only [List.map_cons, List.sum_cons]
    rcases List.mem_cons.1 ha with rfl | ha
    · omega
    · have := ih ha; omega

theorem countP_le_sum (l : List Nat) (f : Nat → Nat) : (l.countP fun j => decide (f j > 0)) ≤ (l.map f).sum := by
  induction l with
  | nil => simp
  | cons a l ih =>
    simp only [List.countP_cons, List.map_cons, List.sum_cons, decide_eq_true_eq]
    split <;> omega

theorem sum_le_countP (l : List Nat) (f : Nat → Nat) (h : ∀ j ∈ l, f j ≤ 1) : (l.map f).sum ≤ (l.countP fun j => decide (f j > 0)) := by
  induction l with
  | nil => simp
  | cons a l ih =>
    have := h a (.head _)
    have := ih fun j hj => h j (.tail _ hj)
    simp only [List.countP_cons, List.map_cons, List.sum_cons, decide_eq_true_eq]
    split <;> omega

/-- C76: an extracted pair has non-empty sides, contiguous in the sentences, its source side (and its target side when
unaligned words count) within the limits, and a weight of at least one, which is one if the values of the links are one. -/
theorem C76_phrases_weights (p : Pars) (ns t : List String) (A : Mat) (h2 : 2 ≤ ns.length)
    (hI : A.I = ns.length - 1) (hJ : A.J = t.length) :
    ∃ out, extract p ns t A = some out ∧ ∀ ph ∈ out,
      ph.s ≠ [] ∧ ph.t ≠ [] ∧ (∃ u v, ns = u ++ ph.s ++ v ∧ u ≠ []) ∧ (∃ u v, t = u ++ ph.t ++ v) ∧
      ph.s.length ≤ p.maxSrc ∧ (p.countSpurious = true → ph.t.length ≤ p.maxTrg) ∧
      0 < ph.den ∧ ph.den ≤ ph.num ∧ ((∀ i j, A.m i j ≤ 1) → ph.num = ph.den) := by
  obtain ⟨L, _, h3, h4⟩ := C74_extraction_sound_partial p ns t A h2 hI hJ
  refine ⟨_, h3, fun ph hph => ?_⟩
  obtain ⟨s, hs, rfl⟩ := List.mem_map.1 hph
  obtain ⟨⟨c1, c2, c3, c4, c5, c6, c7, i, j, hl, c8, c9⟩, ⟨w1, w2⟩, _⟩ := h4 s hs
  have hsl : (phraseOf ns t A s).s.length = s.x2 + 1 - s.x1 := by simp only [phraseOf, List.length_take, List.length_drop]; omega
  have htl : (phraseOf ns t A s).t.length = s.y2 + 1 - s.y1 := by simp only [phraseOf, List.length_take, List.length_drop]; omega
  have hij := (c7 i j hl).1 ⟨c8, c9⟩
  refine ⟨?_, ?_, ?_, ?_, by omega, ?_, ?_, ?_, ?_⟩
  · intro e; rw [e] at hsl; simp at hsl; omega
  · intro e; rw [e] at htl; simp at htl; omega
  · refine ⟨ns.take s.x1, (ns.drop s.x1).drop (s.x2 + 1 - s.x1), ?_, ?_⟩
    · simp only [phraseOf, List.append_assoc, List.take_append_drop]
    · intro e
      have := congrArg List.length e
      simp only [List.length_take, List.length_nil] at this
      omega
  · refine ⟨t.take (s.y1 - 1), (t.drop (s.y1 - 1)).drop (s.y2 + 1 - s.y1), ?_⟩
    simp only [phraseOf, List.append_assoc, List.take_append_drop]
  · intro hc
    rw [hc] at w2
    simp only [if_true] at w2
    omega
  · simp only [phraseOf]
    apply sum_pos _ _ i (by simp only [List.mem_range'_1]; omega)
    apply List.countP_pos_iff.2
    exact ⟨j, by simp only [List.mem_range'_1]; omega, by simp only [decide_eq_true_eq]; have := hl.2.2.2.2; omega⟩
  · simp only [phraseOf]
    exact sum_le_sum _ _ _ fun i _ => countP_le_sum _ _
  · intro h1
    simp only [phraseOf]
    exact Nat.le_antisymm (sum_le_sum _ _ _ fun i _ => sum_le_countP _ _ fun j _ => h1 _ _) (sum_le_sum _ _ _ fun i _ => countP_le_sum _ _)

/-! A case: source `a b c`, target `x y z`, links `a`-`y`, `c`-`x`, `c`-`z` (value 2), `b` unaligned. -/

def exLinks : Mat := { I := 3, J := 3, m := fun i j => if i = 0 ∧ j = 1 then 1 else if i = 2 ∧ j = 0 then 1 else if i = 2 ∧ j = 2 then 2 else 0 }

def exNs : List String := ["NULL", "a", "b", "c"]
def exT : List String := ["x", "y", "z"]

example : extract ⟨3, true, true, false⟩ exNs exT exLinks =
    some [⟨["a"], ["y"], 1, 1⟩, ⟨["a", "b"], ["y"], 1, 1⟩, ⟨["a", "b", "c"], ["x", "y", "z"], 4, 3⟩] := by decide +kernel

example : 2 ≤ exNs.length ∧ exNs.length - 1 ≤ 100 ∧ exT.length ≤ 100 ∧ exLinks.I = exNs.length - 1 ∧ exLinks.J = exT.length := by decide

/-- The extension on the left. -/
example : extract ⟨3, true, true, true⟩ exNs ["x", "y"] { I := 3, J := 2, m := fun i j => if (i = 0 ∧ j = 0) ∨ (i = 2 ∧ j = 1) then 1 else 0 } =
    some [⟨["a"], ["x"], 1, 1⟩, ⟨["a", "b"], ["x"], 1, 1⟩, ⟨["c"], ["y"], 1, 1⟩, ⟨["b", "c"], ["y"], 1, 1⟩,
      ⟨["a", "b", "c"], ["x", "y"], 2, 2⟩] := by decide +kernel

end Thot.PhrExtract
