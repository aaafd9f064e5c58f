import Verif.PhrExtract.Ext

/-! Valid coverages, and the contents of the table. -/

namespace Thot.PhrExtract

open Thot.WordAlig (Mat)

theorem inCell_iff {e : Ctx} {j x y : Nat} : inCell e j x y = true ↔ j ≤ y ∧ leftPos e x ≤ j := by
  simp only [inCell, Bool.and_eq_true, decide_eq_true_eq]

/-- The coverage is the interval from `a` to `b`. -/
def IsIntv (c : Cov) (a b : Nat) : Prop := ∀ k, test c k = true ↔ a ≤ k ∧ k ≤ b

/-- The positions below `k` that are covered are the `n` ones from `l` on. -/
def Seen (c : Cov) (N k n l : Nat) : Prop :=
  (n = 0 ∧ l = N ∧ ∀ i, 1 ≤ i → i < k → test c i = false) ∨
    (0 < n ∧ 1 ≤ l ∧ l + n ≤ k ∧ ∀ i, 1 ≤ i → i < k → (test c i = true ↔ l ≤ i ∧ i < l + n))

theorem contLoop_sound (c : Cov) (N : Nat) (m k n l n' l' : Nat) (hk : 1 ≤ k) (hN : k + m ≤ N) (hs : Seen c N k n l)
    (h : contLoop c k m n l = some (n', l')) : Seen c N (k + m) n' l' := by
  induction m generalizing k n l with
  | zero => simp only [contLoop, Option.some.injEq, Prod.mk.injEq] at h; obtain ⟨rfl, rfl⟩ := h; exact hs
  | succ m ih =>
    simp only [contLoop] at h
    split at h
    · cases h
    rename_i hg
    rw [show k + (m + 1) = k + 1 + m by omega]
    refine ih (k + 1) _ _ (by omega) (by omega) ?_ h
    cases ht : test c k with
    | false =>
      simp only [Bool.false_eq_true, if_false, Bool.false_and]
      rcases hs with ⟨h1, h2, h3⟩ | ⟨h1, h2, h3, h4⟩
      · left
        refine ⟨h1, h2, fun i hi hi' => ?_⟩
        by_cases e : i = k
        · subst e; exact ht
        · exact h3 i hi (by omega)
      · right
        refine ⟨h1, h2, by omega, fun i hi hi' => ?_⟩
        by_cases e : i = k
        · subst e; rw [ht]; simp only [Bool.false_eq_true, false_iff]; omega
        · exact h4 i hi (by omega)
    | true =>
      simp only [if_true, Bool.true_and]
      right
      rcases hs with ⟨h1, h2, h3⟩ | ⟨h1, h2, h3, h4⟩
      · have : l > k := by omega
        simp only [this, decide_true, if_true]
        refine ⟨by omega, hk, by omega, fun i hi hi' => ?_⟩
        by_cases e : i = k
        · subst e; rw [ht]; simp
        · rw [h3 i hi (by omega)]; simp; omega
      · have hl : ¬ l > k := by omega
        simp only [hl, decide_false, Bool.false_eq_true, if_false]
        have hprev : test c (k - 1) = true := by
          cases hp : test c (k - 1) with
          | true => rfl
          | false => exact (hg (by simp [h1, ht, hp])).elim
        have hk2 : 1 ≤ k - 1 := by omega
        have hkl := (h4 (k - 1) hk2 (by omega)).1 hprev
        refine ⟨by omega, h2, by omega, fun i hi hi' => ?_⟩
        by_cases e : i = k
        · subst e; rw [ht]; simp; omega
        · rw [h4 i hi (by omega)]; omega

theorem contLoop_complete (c : Cov) (N a b : Nat) (ha : 1 ≤ a) (hab : a ≤ b) (hi : ∀ k, 1 ≤ k → k < N → (test c k = true ↔ a ≤ k ∧ k ≤ b))
    (m k n l : Nat) (hk : 1 ≤ k) (hN : k + m ≤ N) (hs : Seen c N k n l) : ∃ r, contLoop c k m n l = some r := by
  induction m generalizing k n l with
  | zero => exact ⟨_, rfl⟩
  | succ m ih =>
    simp only [contLoop]
    have hng : ¬ (decide (n > 0) && test c k && !test c (k - 1)) = true := by
      intro hg
      simp only [Bool.and_eq_true, decide_eq_true_eq, Bool.not_eq_true'] at hg
      obtain ⟨⟨h1, h2⟩, h3⟩ := hg
      rcases hs with ⟨h, _⟩ | ⟨_, g2, g3, g4⟩
      · omega
      · have hl := (g4 l g2 (by omega)).2 ⟨Nat.le_refl _, by omega⟩
        have e1 := (hi l g2 (by omega)).1 hl
        have e2 := (hi k hk (by omega)).1 h2
        have := (hi (k - 1) (by omega) (by omega)).2 ⟨by omega, by omega⟩
        rw [h3] at this; cases this
    rw [if_neg hng]
    have hstep : contLoop c k 1 n l = some (if test c k then n + 1 else n, if test c k && decide (l > k) then k else l) := by
      simp only [contLoop, if_neg hng]
    exact ih (k + 1) _ _ (by omega) (by omega) (contLoop_sound c N 1 k n l _ _ hk (by omega) hs hstep)

theorem seen_start (c : Cov) (N : Nat) : Seen c N 1 0 N := .inl ⟨rfl, rfl, fun i h1 h2 => by omega⟩

theorem outOk_iff {e : Ctx} (he : e.Ok) {c : Cov} {x y a b l : Nat} (hi : IsIntv c a b) (ha : 1 ≤ a)
    (hl : l = a ∨ ∀ j < e.tlen, inCell e j x y = true) :
    outOk e c x y l = true ↔ ∀ j < e.tlen, inCell e j x y = false → ∀ i, lnk e i j →
      (i < a ∨ b < i) ∧ (e.pars.monotone = true → (i < a → j ≤ y) ∧ (a ≤ i → leftPos e x ≤ j)) := by
  simp only [outOk, List.all_eq_true, List.mem_range, Bool.or_eq_true]
  constructor
  · intro h j hj hnc i hl'
    have := (h j hj).resolve_left (by rw [hnc]; simp) (i - 1) (by have := hl'.2.1; have := hl'.1; omega)
    have hne : (e.alig.m (i - 1) j == 0) = false := by simpa using hl'.2.2
    have hii : i - 1 + 1 = i := by have := hl'.1; omega
    rw [hne, hii] at this
    have hla : l = a := hl.resolve_right (fun h => by rw [h j hj] at hnc; cases hnc)
    subst hla
    simp only [Bool.false_eq_true, Bool.and_eq_true, Bool.or_eq_true, Bool.not_eq_true', false_or] at this
    obtain ⟨h1, h2⟩ := this
    refine ⟨?_, ?_⟩
    · have : ¬ (l ≤ i ∧ i ≤ b) := fun h => by rw [(hi i).2 h] at h1; cases h1
      omega
    · intro hm
      have h2 := h2.resolve_left (by rw [hm]; simp)
      split at h2
      · simp at h2; exact ⟨fun _ => h2, fun h => by omega⟩
      · simp at h2; exact ⟨fun h => by omega, fun _ => h2⟩
  · intro h j hj
    by_cases hnc : inCell e j x y = true
    · exact .inl hnc
    · right
      intro i hi'
      simp only [Bool.not_eq_true] at hnc
      by_cases hm : e.alig.m i j = 0
      · left; simp [hm]
      · right
        obtain ⟨g1, g2⟩ := h j hj hnc (i + 1) ⟨by omega, by omega, by simpa using hm⟩
        have hla : l = a := hl.resolve_right (fun h => by rw [h j hj] at hnc; cases hnc)
        subst hla
        rw [Bool.and_eq_true]
        refine ⟨?_, ?_⟩
        · cases ht : test c (i + 1) with
          | false => rfl
          | true => have := (hi (i + 1)).1 ht; omega
        · cases hmo : e.pars.monotone with
          | false => rfl
          | true =>
            obtain ⟨q1, q2⟩ := g2 hmo
            simp only [Bool.not_true, Bool.false_or]
            split
            · rename_i hlt; have := q1 hlt; simp; omega
            · rename_i hlt; have := q2 (by omega); simp; omega

/-- What `validCoverageForCell` checks, for coverages of source words. -/
theorem validCov_iff {e : Ctx} (he : e.Ok) {c : Cov} {x y : Nat} (hx : x < e.tlen) (hy : y < e.tlen)
    (hc : ∀ k, test c k = true → 1 ≤ k ∧ k < e.nslen) :
    validCov e c x y = true ↔ ∃ a b, 1 ≤ a ∧ a ≤ b ∧ b < e.nslen ∧ IsIntv c a b ∧ b + 1 - a ≤ e.pars.maxSrc ∧
      (x = e.tlen - 1 ∧ y = e.tlen - 1 → a = 1 ∧ b = e.nslen - 1) ∧
      ∀ j < e.tlen, inCell e j x y = false → ∀ i, lnk e i j →
        (i < a ∨ b < i) ∧ (e.pars.monotone = true → (i < a → j ≤ y) ∧ (a ≤ i → leftPos e x ≤ j)) := by
  have h2 := he.ns2
  unfold validCov
  by_cases hw : x = e.tlen - 1 ∧ y = e.tlen - 1
  · have hin : ∀ j < e.tlen, inCell e j x y = true := by
      intro j hj
      simp only [inCell_iff, leftPos]
      omega
    rw [if_pos hw]
    simp only [Bool.and_eq_true, List.all_eq_true, List.mem_range'_1, decide_eq_true_eq]
    constructor
    · rintro ⟨⟨h1, h3⟩, h4⟩
      have hint : IsIntv c 1 (e.nslen - 1) := by
        intro k
        constructor
        · intro h; have := hc k h; omega
        · rintro ⟨g1, g2⟩; exact h1 k ⟨g1, by omega⟩
      exact ⟨1, e.nslen - 1, by omega, by omega, by omega, hint, by omega, fun _ => ⟨rfl, rfl⟩,
        (outOk_iff he hint (by omega) (.inr hin)).1 h4⟩
    · rintro ⟨a, b, g1, g2, g3, g4, g5, g6, g7⟩
      obtain ⟨rfl, rfl⟩ := g6 hw
      refine ⟨⟨fun k hk => (g4 k).2 (by omega), by omega⟩, (outOk_iff he g4 (by omega) (.inr hin)).2 g7⟩
  · rw [if_neg hw]
    constructor
    · intro h
      split at h
      · cases h
      rename_i n l hcl
      have hs := contLoop_sound c e.nslen (e.nslen - 1) 1 0 e.nslen n l (Nat.le_refl _) (by omega) (seen_start c _) hcl
      simp only [Bool.and_eq_true, Bool.not_eq_true', Bool.or_eq_false_iff, beq_eq_false_iff_ne, decide_eq_false_iff_not] at h
      obtain ⟨⟨q1, q2⟩, q3⟩ := h
      rcases hs with ⟨h1, _⟩ | ⟨s1, s2, s3, s4⟩
      · omega
      · have hint : IsIntv c l (l + n - 1) := by
          intro k
          constructor
          · intro hk
            have := hc k hk
            have := (s4 k this.1 (by omega)).1 hk
            omega
          · rintro ⟨k1, k2⟩
            exact (s4 k (by omega) (by omega)).2 ⟨k1, by omega⟩
        exact ⟨l, l + n - 1, s2, by omega, by omega, hint, by omega, fun h => (hw h).elim,
          (outOk_iff he hint s2 (.inl rfl)).1 q3⟩
    · rintro ⟨a, b, g1, g2, g3, g4, g5, g6, g7⟩
      obtain ⟨⟨n, l⟩, hcl⟩ := contLoop_complete c e.nslen a b g1 g2 (fun k _ _ => g4 k) (e.nslen - 1) 1 0 e.nslen (Nat.le_refl _) (by omega) (seen_start c _)
      have hs := contLoop_sound c e.nslen (e.nslen - 1) 1 0 e.nslen n l (Nat.le_refl _) (by omega) (seen_start c _) hcl
      rw [hcl]
      simp only [Bool.and_eq_true, Bool.not_eq_true', Bool.or_eq_false_iff, beq_eq_false_iff_ne, decide_eq_false_iff_not]
      have ha := (g4 a).2 ⟨Nat.le_refl _, g2⟩
      have hb := (g4 b).2 ⟨g2, Nat.le_refl _⟩
      rcases hs with ⟨h1, _, h3⟩ | ⟨s1, s2, s3, s4⟩
      · rw [h3 a g1 (by omega)] at ha; cases ha
      · have e1 := (s4 a g1 (by omega)).1 ha
        have e2 := (s4 b (by omega) (by omega)).1 hb
        have e3 := (g4 l).1 ((s4 l s2 (by omega)).2 ⟨Nat.le_refl _, by omega⟩)
        have e4 := (g4 (l + n - 1)).1 ((s4 (l + n - 1) (by omega) (by omega)).2 ⟨by omega, by omega⟩)
        refine ⟨⟨by omega, by omega⟩, (outOk_iff he g4 g1 (.inl (by omega))).2 g7⟩

/-! The double loop computes a table in which every cell is given by the cells that come before. -/

def before (x1 y1 x2 y2 : Nat) : Prop := y1 < y2 ∨ (y1 = y2 ∧ x1 < x2)

theorem foldl_congr' {α β : Type} {f g : β → α → β} (l : List α) (b : β) (h : ∀ b, ∀ a ∈ l, f b a = g b a) : l.foldl f b = l.foldl g b := by
  induction l generalizing b with
  | nil => rfl
  | cons a l ih =>
    simp only [List.foldl_cons]
    rw [h b a (.head _)]
    exact ih _ fun b a ha => h b a (.tail _ ha)

theorem cell_congr {e : Ctx} {tab tab' : Table} {x y : Nat} (hx : x < e.tlen) (hy : y < e.tlen)
    (h : ∀ x1 y1, before x1 y1 x y → tab x1 y1 = tab' x1 y1) : cell e tab x y = cell e tab' x y := by
  unfold cell
  split
  · split
    · rfl
    · unfold innerCell
      apply foldl_congr'
      intro b z hz
      simp only [List.mem_range'_1, leftPos] at hz
      rw [h x z (.inl (by omega)), h (e.tlen - 2 - z) y (.inr ⟨rfl, by omega⟩)]
  · rfl

theorem cell_put {e : Ctx} {tab : Table} {x y x' y' : Nat} (hx : x < e.tlen) (hy : y < e.tlen) (h : ¬ before x' y' x y) (l : List CellAlig) :
    cell e (putCell tab x' y' l) x y = cell e tab x y := by
  apply cell_congr hx hy
  intro x1 y1 hb
  simp only [putCell]
  rw [if_neg]
  rintro ⟨rfl, rfl⟩
  exact h hb

/-- All cells before `(x, y)` have been computed. -/
def Computed (e : Ctx) (tab : Table) (x y : Nat) : Prop :=
  ∀ x' y', x' < e.tlen → y' < e.tlen → leftPos e x' ≤ y' → before x' y' x y → tab x' y' = cell e tab x' y'

theorem row_inv {e : Ctx} (y : Nat) (hy : y < e.tlen) (m x : Nat) (hx : x + m = e.tlen) (tab : Table) (h : Computed e tab x y) :
    Computed e ((List.range' x m).foldl (fun tab x => putCell tab x y (cell e tab x y)) tab) e.tlen y := by
  induction m generalizing x tab with
  | zero => simp only [List.range'_zero, List.foldl_nil]; have : x = e.tlen := by omega
            subst this; exact h
  | succ m ih =>
    rw [List.range'_succ, List.foldl_cons]
    apply ih (x + 1) (by omega)
    intro x' y' hx' hy' hl hb
    have hnb : ¬ before x y x' y' := by
      unfold before at hb ⊢; omega
    rw [cell_put hx' hy' hnb]
    by_cases he : x' = x ∧ y' = y
    · obtain ⟨rfl, rfl⟩ := he
      simp [putCell]
    · simp only [putCell, he, if_false]
      refine h x' y' hx' hy' hl ?_
      unfold before at hb ⊢; omega

theorem rows_inv {e : Ctx} (n : Nat) (hn : n ≤ e.tlen) :
    ∀ x' y', x' < e.tlen → y' < n → leftPos e x' ≤ y' →
      let tab := (List.range n).foldl (fun tab y =>
        (List.range' (e.tlen - y - 1) (y + 1)).foldl (fun tab x => putCell tab x y (cell e tab x y)) tab) (fun _ _ => [])
      tab x' y' = cell e tab x' y' := by
  induction n with
  | zero => intro x' y' _ h; omega
  | succ n ih =>
    intro x' y' hx' hy' hl
    have ih := ih (by omega)
    simp only [List.range_succ, List.foldl_append, List.foldl_cons, List.foldl_nil] at ih ⊢
    generalize (List.range n).foldl (fun tab y =>
        (List.range' (e.tlen - y - 1) (y + 1)).foldl (fun tab x => putCell tab x y (cell e tab x y)) tab) (fun _ _ => []) = tab at ih ⊢
    refine row_inv n (by omega) (n + 1) (e.tlen - n - 1) (by omega) tab ?_ x' y' hx' (by omega) hl ?_
    · intro x1 y1 h1 h2 h3 h4
      unfold before at h4
      simp only [leftPos] at h3
      exact ih x1 y1 h1 (by omega) (by simp only [leftPos]; omega)
    · unfold before; omega

theorem fill_cell {e : Ctx} {x y : Nat} (hx : x < e.tlen) (hy : y < e.tlen) (hl : leftPos e x ≤ y) :
    fillTable e x y = cell e (fillTable e) x y := rows_inv e.tlen (Nat.le_refl _) x y hx hy hl

/-! The inner cells. -/

def innerCovs (e : Ctx) (tab : Table) (x y : Nat) : List Cov :=
  (List.range' (leftPos e x) (y - leftPos e x)).flatMap fun z =>
    (tab x z).flatMap fun a => (tab (e.tlen - 2 - z) y).map fun b => a.cov ||| b.cov

theorem innerCell_eq (e : Ctx) (tab : Table) (x y : Nat) : innerCell e tab x y = (innerCovs e tab x y).foldl (addCov e x y) [] := by
  simp only [innerCell, innerCovs, List.foldl_flatMap, List.foldl_map]

theorem addCov_fold (e : Ctx) (x y : Nat) (L : List Cov) (acc : List CellAlig) (hn : (covs acc).Nodup)
    (hv : ∀ a ∈ acc, a.valid = validCov e a.cov x y) :
    let r := L.foldl (addCov e x y) acc
    (covs r).Nodup ∧ (∀ a ∈ r, a.valid = validCov e a.cov x y) ∧ ∀ c, c ∈ covs r ↔ c ∈ covs acc ∨ c ∈ L := by
  induction L generalizing acc with
  | nil => exact ⟨hn, hv, fun c => by simp⟩
  | cons c L ih =>
    simp only [List.foldl_cons]
    have hmem : (acc.any fun a => a.cov == c) = true ↔ c ∈ covs acc := by
      simp [covs, List.any_eq_true]
    by_cases hc : c ∈ covs acc
    · have : addCov e x y acc c = acc := by simp [addCov, hmem.2 hc]
      rw [this]
      obtain ⟨h1, h2, h3⟩ := ih acc hn hv
      refine ⟨h1, h2, fun d => ?_⟩
      rw [h3]
      simp only [List.mem_cons]
      constructor
      · rintro (h | h)
        · exact .inl h
        · exact .inr (.inr h)
      · rintro (h | rfl | h)
        · exact .inl h
        · exact .inl hc
        · exact .inr h
    · have : addCov e x y acc c = acc ++ [⟨validCov e c x y, c⟩] := by
        have : ¬ (acc.any fun a => a.cov == c) = true := fun h => hc (hmem.1 h)
        simp [addCov, this]
      rw [this]
      have e1 : covs (acc ++ [⟨validCov e c x y, c⟩]) = covs acc ++ [c] := by simp [covs]
      obtain ⟨h1, h2, h3⟩ := ih (acc ++ [⟨validCov e c x y, c⟩]) (by
          rw [e1, List.nodup_append]
          exact ⟨hn, by simp, by intro a ha b hb; simp at hb; subst hb; intro e; subst e; exact hc ha⟩) (by
          intro a ha
          rcases List.mem_append.1 ha with ha | ha
          · exact hv a ha
          · simp at ha; subst ha; rfl)
      refine ⟨h1, h2, fun d => ?_⟩
      rw [h3, e1]
      simp only [List.mem_append, List.mem_cons, List.not_mem_nil, or_false]
      constructor
      · rintro ((h | h) | h)
        · exact .inl h
        · exact .inr (.inl h)
        · exact .inr (.inr h)
      · rintro (h | h | h)
        · exact .inl (.inl h)
        · exact .inl (.inr h)
        · exact .inr h

theorem inner_spec (e : Ctx) (tab : Table) (x y : Nat) :
    (covs (innerCell e tab x y)).Nodup ∧ (∀ a ∈ innerCell e tab x y, a.valid = validCov e a.cov x y) ∧
      ∀ c, c ∈ covs (innerCell e tab x y) ↔ ∃ z, leftPos e x ≤ z ∧ z < y ∧ ∃ a ∈ covs (tab x z), ∃ b ∈ covs (tab (e.tlen - 2 - z) y), c = a ||| b := by
  rw [innerCell_eq]
  obtain ⟨h1, h2, h3⟩ := addCov_fold e x y (innerCovs e tab x y) [] (by simp [covs]) (by simp)
  refine ⟨h1, h2, fun c => ?_⟩
  rw [h3]
  simp only [innerCovs, List.mem_flatMap, List.mem_range'_1, List.mem_map, covs, List.map_nil, List.not_mem_nil, false_or]
  constructor
  · rintro ⟨z, hz, a, ha, b, hb, rfl⟩
    exact ⟨z, hz.1, by omega, a.cov, ⟨a, ha, rfl⟩, b.cov, ⟨b, hb, rfl⟩, rfl⟩
  · rintro ⟨z, hz, hz', _, ⟨a, ha, rfl⟩, _, ⟨b, hb, rfl⟩, rfl⟩
    exact ⟨z, ⟨hz, by omega⟩, a, ha, b, hb, rfl⟩

/-- What is known of each coverage in a cell. -/
structure CovOk (e : Ctx) (x y : Nat) (c : Cov) : Prop where
  links : ∀ k j, inCell e j x y = true → lnk e k j → test c k = true
  range : ∀ k, test c k = true → 1 ≤ k ∧ k < e.nslen
  some_ : ∀ k, test c k = true → ∃ i j, inCell e j x y = true ∧ lnk e i j

theorem extern_covOk {e : Ctx} (he : e.Ok) {x y : Nat} (hy : y < e.tlen) (hx : x = e.tlen - y - 1) {a : CellAlig} (ha : a ∈ externCell e x y) :
    CovOk e x y a.cov := by
  have hcell : ∀ j, inCell e j x y = true ↔ j = y := by
    intro j
    simp only [inCell_iff, leftPos]
    omega
  have hbase : ∀ c : Cov, (∀ k, test (baseCov e y) k = true → test c k = true) → ∀ k j, inCell e j x y = true → lnk e k j → test c k = true := by
    intro c hc k j hj hl
    have := (hcell j).1 hj
    subst this
    exact hc k ((base_spec he j k).2 (.inl hl))
  have hbr : ∀ k, test (baseCov e y) k = true → (1 ≤ k ∧ k < e.nslen) ∧ ∃ i, lnk e i y := by
    intro k hk
    rcases (base_spec he y k).1 hk with h | h
    · exact ⟨⟨h.1, h.2.1⟩, k, h⟩
    · refine ⟨⟨h.1, h.2.1⟩, lm e y, ?_⟩
      rcases (link_spec he y).2 with h' | h'
      · omega
      · exact h'.1
  have mk : (∃ i, lnk e i y) → ∃ i j, inCell e j x y = true ∧ lnk e i j := fun ⟨i, hi⟩ => ⟨i, y, (hcell y).2 rfl, hi⟩
  cases extern_mem he ha with
  | base => exact ⟨hbase _ fun _ h => h, fun k hk => (hbr k hk).1, fun k hk => mk (hbr k hk).2⟩
  | left hl =>
    refine ⟨hbase _ fun k h => (left_spec he hy hl k).2 (.inl h), fun k hk => ?_, fun k _ => mk hl⟩
    rcases (left_spec he hy hl k).1 hk with h | h
    · exact (hbr k h).1
    · obtain ⟨hl1, _⟩ := (link_spec he y).2.resolve_left (fun h => by obtain ⟨k, hk⟩ := hl; exact h.1 k hk)
      have := hl1.2.1
      omega
  | right hl =>
    refine ⟨hbase _ fun k h => (right_spec he hy hl k).2 (.inl h), fun k hk => ?_, fun k _ => mk hl⟩
    rcases (right_spec he hy hl k).1 hk with h | h
    · exact (hbr k h).1
    · omega

theorem nonspur_pos {e : Ctx} (he : e.Ok) {x y : Nat} (hy : y < e.tlen) {i j : Nat} (hc : inCell e j x y = true) (hl : lnk e i j) :
    trgLenNonSpur e x y > 0 := by
  rw [inCell_iff] at hc
  apply List.countP_pos_iff.2
  refine ⟨j, by simp only [List.mem_range'_1]; omega, ?_⟩
  cases hs : test (spurious e.alig) j with
  | false => rfl
  | true => exact ((spurious_spec he (by omega)).1 hs i hl).elim

theorem covOk_or {e : Ctx} {x y z : Nat} (hz : leftPos e x ≤ z) (hzy : z < y) (hy : y < e.tlen) (hx : x < e.tlen) {a b : Cov}
    (ha : CovOk e x z a) (hb : CovOk e (e.tlen - 2 - z) y b) : CovOk e x y (a ||| b) := by
  have hin : ∀ j, inCell e j x y = true ↔ inCell e j x z = true ∨ inCell e j (e.tlen - 2 - z) y = true := by
    intro j
    simp only [inCell_iff, leftPos] at hz ⊢
    omega
  refine ⟨fun k j hj hl => ?_, fun k hk => ?_, fun k hk => ?_⟩
  · rw [test_or, Bool.or_eq_true]
    rcases (hin j).1 hj with h | h
    · exact .inl (ha.links k j h hl)
    · exact .inr (hb.links k j h hl)
  · rw [test_or, Bool.or_eq_true] at hk
    rcases hk with h | h
    · exact ha.range k h
    · exact hb.range k h
  · rw [test_or, Bool.or_eq_true] at hk
    rcases hk with h | h
    · obtain ⟨i, j, h1, h2⟩ := ha.some_ k h; exact ⟨i, j, (hin j).2 (.inl h1), h2⟩
    · obtain ⟨i, j, h1, h2⟩ := hb.some_ k h; exact ⟨i, j, (hin j).2 (.inr h1), h2⟩

/-- Soundness of the table. -/
theorem table_sound {e : Ctx} (he : e.Ok) (n : Nat) : ∀ {x y : Nat}, x < e.tlen → y < e.tlen → leftPos e x ≤ y → y - leftPos e x = n →
    (covs (fillTable e x y)).Nodup ∧ ∀ a ∈ fillTable e x y, CovOk e x y a.cov ∧ a.valid = validCov e a.cov x y := by
  induction n using Nat.strongRecOn with
  | _ n ih =>
    intro x y hx hy hl hn
    rw [fill_cell hx hy hl]
    unfold cell
    generalize hT : fillTable e = T at ih ⊢
    split
    · split
      · rename_i hxy
        refine ⟨extern_nodup he hy, fun a ha => ?_⟩
        have hok := extern_covOk he hy hxy ha
        refine ⟨hok, ?_⟩
        cases extern_mem he ha with
        | left hl => rfl
        | right hl => rfl
        | base =>
          cases hv : validCov e (baseCov e y) x y with
          | false => rfl
          | true =>
            obtain ⟨a, b, h1, h2, h3, h4, _⟩ := (validCov_iff he hx hy hok.range).1 hv
            obtain ⟨i, j, g1, g2⟩ := hok.some_ a ((h4 a).2 ⟨Nat.le_refl _, h2⟩)
            have := nonspur_pos he hy g1 g2
            simpa using this
      · obtain ⟨h1, h2, h3⟩ := inner_spec e T x y
        refine ⟨h1, fun a ha => ⟨?_, h2 a ha⟩⟩
        obtain ⟨z, hz, hz', c1, hc1, c2, hc2, he'⟩ := (h3 a.cov).1 (List.mem_map.2 ⟨a, ha, rfl⟩)
        obtain ⟨a1, ha1, rfl⟩ := List.mem_map.1 hc1
        obtain ⟨a2, ha2, rfl⟩ := List.mem_map.1 hc2
        rw [he']
        have q1 := ih (z - leftPos e x) (by omega) (x := x) (y := z) hx (by omega) hz rfl
        have q2 := ih (y - leftPos e (e.tlen - 2 - z)) (by simp only [leftPos] at hz hn hl ⊢; omega) (x := e.tlen - 2 - z) (y := y) (by omega) hy
          (by simp only [leftPos]; omega) rfl
        exact covOk_or hz hz' hy hx (q1.2 a1 ha1).1 (q2.2 a2 ha2).1
    · exact ⟨by simp [covs], by simp⟩

  
/-- Union of coverages of the target words of a cell. -/
def unionCov (f : Nat → Cov) : Nat → Nat → Cov
  | _, 0 => 0
  | p, n + 1 => f p ||| unionCov f (p + 1) n

end Thot.PhrExtract
