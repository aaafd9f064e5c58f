import Verif.Srf.Model

/-! The sets of pairs with counts, and the sets of positions. -/

namespace Thot.Srf

open Thot.WordAlig (Mat)
open Thot.PhrExtract
open AMap

/-! ### Sets of pairs -/

/-- The count of a pair. -/
def val (b : BpSet) (u : Span) : Nat := (lk b u).getD 0

theorem val_incr (b : BpSet) (s : Span) (c : Nat) (u : Span) : val (incrPair b s c) u = val b u + if u = s then c else 0 := by
  unfold val incrPair
  rw [lk_put]
  by_cases h : u = s
  · subst h; simp
  · simp [h]

theorem distinct_incr {b : BpSet} (h : Distinct b) (s : Span) (c : Nat) : Distinct (incrPair b s c) := distinct_put h _ _

/-- What a list of pairs adds to a count. -/
def tot (l : BpSet) (u : Span) : Nat := ((l.filter fun e => e.1 = u).map Prod.snd).sum

theorem tot_cons (e : Span × Nat) (l : BpSet) (u : Span) : tot (e :: l) u = (if u = e.1 then e.2 else 0) + tot l u := by
  unfold tot
  by_cases h : e.1 = u
  · subst h; simp
  · have h' : ¬ u = e.1 := fun q => h q.symm
    simp [h, h']

theorem val_fold (l : BpSet) (a : BpSet) (u : Span) :
    val (l.foldl (fun a e => incrPair a e.1 e.2) a) u = val a u + tot l u := by
  induction l generalizing a with
  | nil => simp [tot]
  | cons e l ih =>
    rw [List.foldl_cons, ih, val_incr, tot_cons]
    omega

theorem distinct_fold (l : BpSet) {a : BpSet} (h : Distinct a) : Distinct (l.foldl (fun a e => incrPair a e.1 e.2) a) := by
  induction l generalizing a with
  | nil => exact h
  | cons e l ih => exact ih (distinct_incr h _ _)

theorem tot_of_not_mem {l : BpSet} {u : Span} (h : u ∉ l.map Prod.fst) : tot l u = 0 := by
  induction l with
  | nil => rfl
  | cons e l ih =>
    rw [List.map_cons, List.mem_cons, not_or] at h
    rw [tot_cons, if_neg h.1, ih h.2]

theorem tot_distinct {b : BpSet} (h : Distinct b) (u : Span) : tot b u = val b u := by
  induction b with
  | nil => rfl
  | cons e b ih =>
    have h' := List.nodup_cons.1 (show (e.1 :: b.map Prod.fst).Nodup from h)
    rw [tot_cons, ih h'.2]
    unfold val
    rw [lk]
    by_cases q : e.1 = u
    · subst q
      rw [if_pos rfl, if_pos rfl, lk_none_iff.2 h'.1]
      rfl
    · rw [if_neg (fun q' => q q'.symm), if_neg q]
      omega

theorem tot_perm {l m : BpSet} (h : l.Perm m) (u : Span) : tot l u = tot m u :=
  ((h.filter _).map _).sum_nat

theorem le_x1Max_aux (b : BpSet) (m : Nat) : m ≤ b.foldl (fun m e => max m e.1.x1) m ∧
    ∀ e ∈ b, e.1.x1 ≤ b.foldl (fun m e => max m e.1.x1) m := by
  induction b generalizing m with
  | nil => simp
  | cons e b ih =>
    rw [List.foldl_cons]
    have := ih (max m e.1.x1)
    refine ⟨by omega, fun e' he' => ?_⟩
    rcases List.mem_cons.1 he' with rfl | h
    · omega
    · exact this.2 _ h

theorem le_x1Max {b : BpSet} {e : Span × Nat} (h : e ∈ b) : e.1.x1 ≤ x1Max b := (le_x1Max_aux b 0).2 e h

theorem le_x2Max_aux (b : BpSet) (x1 m : Nat) : m ≤ b.foldl (fun m e => if e.1.x1 = x1 then max m e.1.x2 else m) m ∧
    ∀ e ∈ b, e.1.x1 = x1 → e.1.x2 ≤ b.foldl (fun m e => if e.1.x1 = x1 then max m e.1.x2 else m) m := by
  induction b generalizing m with
  | nil => simp
  | cons e b ih =>
    rw [List.foldl_cons]
    have := ih (if e.1.x1 = x1 then max m e.1.x2 else m)
    refine ⟨?_, fun e' he' hx => ?_⟩
    · refine Nat.le_trans ?_ this.1
      split <;> omega
    · rcases List.mem_cons.1 he' with rfl | h
      · refine Nat.le_trans ?_ this.1
        rw [if_pos hx]
        omega
      · exact this.2 _ h hx

theorem le_x2Max {b : BpSet} {e : Span × Nat} (h : e ∈ b) : e.1.x2 ≤ x2Max b e.1.x1 := (le_x2Max_aux b _ 0).2 e h rfl

theorem mem_retrieve {b : BpSet} {x y : Nat} {e : Span × Nat} : e ∈ retrieve b x y ↔ e ∈ b ∧ e.1.x1 = x ∧ e.1.x2 = y := by
  simp [retrieve]

theorem mem_inOrder {b : BpSet} {f : Nat} {e : Span × Nat} : e ∈ inOrder b f ↔ e ∈ b ∧ f ≤ e.1.x1 ∧ f ≤ e.1.x2 := by
  simp only [inOrder, List.mem_flatMap, List.mem_range'_1, mem_retrieve]
  constructor
  · rintro ⟨i, hi, j, hj, he, rfl, rfl⟩
    exact ⟨he, hi.1, hj.1⟩
  · rintro ⟨he, h1, h2⟩
    have := le_x1Max he
    have := le_x2Max he
    exact ⟨_, by omega, _, by omega, he, rfl, rfl⟩

theorem nodup_of_distinct {b : BpSet} (h : Distinct b) : b.Nodup := List.Pairwise.of_map _ (fun _ _ q q' => q (by rw [q'])) h

theorem nodup_inOrder {b : BpSet} (h : Distinct b) (f : Nat) : (inOrder b f).Nodup := by
  have hn := nodup_of_distinct h
  apply nodup_flatMap'
  · exact List.nodup_range'
  · intro i _
    apply nodup_flatMap'
    · exact List.nodup_range'
    · intro j _; exact hn.sublist List.filter_sublist
    · intro j j' e h1 h2
      have := mem_retrieve.1 h1; have := mem_retrieve.1 h2
      omega
  · intro i i' e h1 h2
    obtain ⟨j, _, h1⟩ := List.mem_flatMap.1 h1
    obtain ⟨j', _, h2⟩ := List.mem_flatMap.1 h2
    have := mem_retrieve.1 h1; have := mem_retrieve.1 h2
    omega

theorem perm_inOrder {b : BpSet} (h : Distinct b) : (inOrder b 0).Perm b :=
  (List.perm_ext_iff_of_nodup (nodup_inOrder h 0) (nodup_of_distinct h)).2 fun e => by rw [mem_inOrder]; simp

theorem val_union (a : BpSet) {b : BpSet} (h : Distinct b) (u : Span) : val (obtainUnion a b) u = val a u + val b u := by
  unfold obtainUnion
  rw [val_fold, tot_perm (perm_inOrder h), tot_distinct h]

theorem distinct_union {a : BpSet} (h : Distinct a) (b : BpSet) : Distinct (obtainUnion a b) := distinct_fold _ h

/-- No count is zero. -/
def Pos (b : BpSet) : Prop := ∀ e ∈ b, 0 < e.2

theorem pos_incr {b : BpSet} (hd : Distinct b) (h : Pos b) {s : Span} {c : Nat} (hc : 0 < c) : Pos (incrPair b s c) := by
  intro e he
  have h1 := (lk_some_iff (distinct_incr hd s c) (k := e.1) (v := e.2)).2 he
  unfold incrPair at h1
  rw [lk_put] at h1
  split at h1
  · have := Option.some.inj h1; omega
  · exact h _ ((lk_some_iff hd (k := e.1) (v := e.2)).1 h1)

theorem pos_fold (l : BpSet) {a : BpSet} (hd : Distinct a) (ha : Pos a) (hl : Pos l) : Pos (l.foldl (fun a e => incrPair a e.1 e.2) a) := by
  induction l generalizing a with
  | nil => exact ha
  | cons e l ih => exact ih (distinct_incr hd _ _) (pos_incr hd ha (hl e (.head _))) fun e he => hl e (.tail _ he)

theorem pos_union {a b : BpSet} (hd : Distinct a) (ha : Pos a) (hb : Pos b) : Pos (obtainUnion a b) :=
  pos_fold _ hd ha fun e he => hb e (mem_inOrder.1 he).1

theorem mem_keys {b : BpSet} {u : Span} : u ∈ b.map Prod.fst ↔ (lk b u).isSome := by
  have := lk_none_iff (m := b) (k := u)
  cases h : lk b u with
  | none => exact iff_of_false (this.1 h) (by simp)
  | some v =>
    refine iff_of_true (Classical.byContradiction fun q => ?_) rfl
    rw [this.2 q] at h
    cases h

theorem keys_pos {b : BpSet} (hd : Distinct b) (hp : Pos b) (u : Span) : u ∈ b.map Prod.fst ↔ 0 < val b u := by
  rw [mem_keys]
  unfold val
  cases h : lk b u with
  | none => simp
  | some v =>
    have := hp _ ((lk_some_iff hd).1 h)
    simpa using this

/-! ### Sets of positions -/

/-- Positions `a..I`. -/
def suf (I a : Nat) : Cov := (List.range' a (I + 1 - a)).foldl cset 0

theorem fullCov_eq (I : Nat) : fullCov I = suf I 1 := rfl

theorem test_setAll (l : List Nat) (hl : ∀ i ∈ l, i < 128) (c : Cov) (k : Nat) :
    test (l.foldl cset c) k = (test c k || decide (k ∈ l)) := by
  induction l generalizing c with
  | nil => simp
  | cons i l ih =>
    rw [List.foldl_cons, ih (fun i hi => hl i (.tail _ hi)), test_cset (hl i (.head _))]
    by_cases h : i = k
    · subst h; simp
    · have h' : ¬ k = i := fun q => h q.symm
      simp [h, h']

theorem test_resetAll (l : List Nat) (hl : ∀ i ∈ l, i < 128) (c : Cov) (k : Nat) :
    test (l.foldl creset c) k = (test c k && decide (k ∉ l)) := by
  induction l generalizing c with
  | nil => simp
  | cons i l ih =>
    rw [List.foldl_cons, ih (fun i hi => hl i (.tail _ hi)), test_creset (hl i (.head _))]
    by_cases h : i = k
    · subst h; simp
    · have h' : ¬ k = i := fun q => h q.symm
      simp [h, h']

theorem test_suf {I : Nat} (hI : I < 128) (a k : Nat) : test (suf I a) k = decide (a ≤ k ∧ k ≤ I) := by
  unfold suf
  rw [test_setAll _ (fun i hi => by simp only [List.mem_range'_1] at hi; omega), test_zero, Bool.false_or]
  simp only [List.mem_range'_1, decide_eq_decide]
  omega

theorem suf_inj {I : Nat} (hI : I < 128) {a b : Nat} (ha : a ≤ I + 1) (hb : b ≤ I + 1) (h : suf I a = suf I b) : a = b := by
  have h1 := fun k => (test_suf hI a k).symm.trans ((congrArg (fun c => test c k) h).trans (test_suf hI b k))
  have h2 := h1 a
  have h3 := h1 b
  simp only [decide_eq_decide] at h2 h3
  omega

theorem suf_eq_zero {I : Nat} (hI : I < 128) (a : Nat) : suf I a = 0 ↔ I < a := by
  constructor
  · intro h
    have := test_suf hI a a
    rw [h, test_zero] at this
    simp at this
    exact this
  · intro h
    apply cov_ext
    intro k _
    rw [test_suf hI, test_zero]
    simp
    omega

theorem minMax_aux (c : Cov) (a b : Nat) (hi : IsIntv c a b) (ha : 1 ≤ a) (hab : a ≤ b) (ha' : a ≤ maxSentLen) (n : Nat) :
    (List.range' 1 n).foldl (fun (r : Nat × Nat) k =>
      if test c k then (if r.1 > k then k else r.1, if r.2 < k then k else r.2) else r) (maxSentLen + 1, 0) =
    if n < a then (maxSentLen + 1, 0) else (a, min n b) := by
  induction n with
  | zero => rw [if_pos (by omega)]; rfl
  | succ n ih =>
    rw [List.range'_1_concat, List.foldl_append, ih, List.foldl_cons, List.foldl_nil]
    by_cases h : test c (1 + n)
    · have := (hi _).1 h
      rw [if_pos h, if_neg (show ¬ n + 1 < a by omega)]
      by_cases h' : n < a
      · rw [if_pos h']
        have : 1 + n = a := by omega
        simp only [this, Prod.mk.injEq]
        constructor
        · rw [if_pos (by omega)]
        · rw [if_pos (by omega)]; omega
      · rw [if_neg h']
        simp only [Prod.mk.injEq]
        constructor
        · rw [if_neg (by omega)]
        · split <;> omega
    · have : ¬ (a ≤ 1 + n ∧ 1 + n ≤ b) := fun q => h ((hi _).2 q)
      rw [if_neg h]
      by_cases h' : n < a
      · rw [if_pos h', if_pos (by omega)]
      · rw [if_neg h', if_neg (by omega)]
        simp only [Prod.mk.injEq, true_and]
        omega

theorem minMax_intv {c : Cov} {a b n : Nat} (hi : IsIntv c a b) (ha : 1 ≤ a) (hab : a ≤ b) (ha' : a ≤ maxSentLen) (hn : b ≤ n) :
    minMax c n = (a, b) := by
  unfold minMax
  rw [minMax_aux c a b hi ha hab ha', if_neg (by omega), Nat.min_eq_right hn]

theorem suf_intv {I : Nat} (hI : I < 128) (a : Nat) : IsIntv (suf I a) a I := by
  intro k
  rw [test_suf hI, decide_eq_true_eq]

theorem markSrc_suf {I : Nat} (hI : I < 128) {a x : Nat} (hax : a ≤ x) (hx : x ≤ I) : markSrc (suf I a) a x = suf I (x + 1) := by
  apply cov_ext
  intro k _
  unfold markSrc
  rw [test_resetAll _ (fun i hi => by simp only [List.mem_range'_1] at hi; omega), test_suf hI, test_suf hI, ← Bool.decide_and,
    decide_eq_decide]
  simp only [List.mem_range'_1]
  omega

theorem markTrg_spec (m : Nat) : ∀ (c : Cov) (k : Nat), k + m ≤ 128 →
    (∀ c', markTrg c k m = some c' → (∀ j, k ≤ j → j < k + m → test c j = true) ∧
      ∀ j, test c' j = (test c j && decide (¬ (k ≤ j ∧ j < k + m)))) ∧
    (markTrg c k m = none → ∃ j, k ≤ j ∧ j < k + m ∧ test c j = false) := by
  induction m with
  | zero =>
    intro c k _
    refine ⟨fun c' h => ?_, fun h => by cases h⟩
    cases h
    refine ⟨fun j _ _ => by omega, fun j => ?_⟩
    simp
  | succ m ih =>
    intro c k hk
    rw [markTrg]
    by_cases h : test c k
    · rw [if_pos h]
      obtain ⟨h1, h2⟩ := ih (creset c k) (k + 1) (by omega)
      refine ⟨fun c' hc' => ?_, fun hn => ?_⟩
      · obtain ⟨g1, g2⟩ := h1 c' hc'
        refine ⟨fun j hj hj' => ?_, fun j => ?_⟩
        · by_cases e : j = k
          · subst e; exact h
          · have := g1 j (by omega) (by omega)
            rw [test_creset (by omega), Bool.and_eq_true] at this
            exact this.1
        · rw [g2 j, test_creset (by omega)]
          by_cases e : k = j
          · subst e; simp
          · by_cases q : k + 1 ≤ j ∧ j < k + 1 + m
            · have : k ≤ j ∧ j < k + (m + 1) := by omega
              simp [q, this]
            · have : ¬ (k ≤ j ∧ j < k + (m + 1)) := by omega
              simp only [q, this, e, not_false_eq_true, decide_true, Bool.and_true, ne_eq]
      · obtain ⟨j, g1, g2, g3⟩ := h2 hn
        refine ⟨j, by omega, by omega, ?_⟩
        rw [test_creset (by omega)] at g3
        have : k ≠ j := by omega
        simpa [this] using g3
    · rw [if_neg h]
      refine ⟨fun c' h => (by cases h), fun _ => ⟨k, by omega, by omega, by simpa using h⟩⟩

end Thot.Srf
