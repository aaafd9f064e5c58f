import Verif.Hmm.Model
/-! Proofs about the Viterbi search (helper lemmas; the claims are in `Props`). -/
namespace Thot.Hmm

theorem forUp_succ {σ : Type} (n : Nat) (f : σ → Nat → σ) (s : σ) : forUp (n + 1) f s = f (forUp n f s) (n + 1) := by
  unfold forUp
  rw [List.range'_concat, List.foldl_append]
  simp [Nat.add_comm]

theorem forUp_zero {σ : Type} (f : σ → Nat → σ) (s : σ) : forUp 0 f s = s := rfl

/-- Loop invariant rule. -/
theorem forUp_inv {σ : Type} {n : Nat} {f : σ → Nat → σ} {s : σ} (P : Nat → σ → Prop) (h0 : P 0 s)
    (hs : ∀ k st, k < n → P k st → P (k + 1) (f st (k + 1))) : P n (forUp n f s) := by
  induction n with
  | zero => exact h0
  | succ n ih =>
    rw [forUp_succ]
    exact hs n _ (Nat.lt_succ_self _) (ih (fun k st hk hp => hs k st (by omega) hp))

theorem Mat.put_self {α : Type} (m : Mat α) (i j : Nat) (v : α) : m.put i j v i j = v := by simp [Mat.put]

theorem Mat.put_ne {α : Type} (m : Mat α) {i j i' j' : Nat} (v : α) (h : ¬ (i' = i ∧ j' = j)) :
    m.put i j v i' j' = m i' j' := by simp [Mat.put, h]

/-! ### The cache is transparent -/

/-- Every cached value is the model's value. -/
def CacheOk (la : Nat → Nat → Nat → Rat) (c : Cache) : Prop := ∀ p s i, c.isDefined p s i = true → c p s i = la p s i

theorem cacheOk_ensure {la : Nat → Nat → Nat → Rat} {c : Cache} (h : CacheOk la c) (p s i : Nat) :
    CacheOk la (c.ensure la p s i) := by
  unfold Cache.ensure
  split
  · exact h
  · intro p' s' i' hd
    unfold Cache.store Cache.isDefined at *
    split
    · rename_i hh; obtain ⟨rfl, rfl, rfl⟩ := hh; rfl
    · rename_i hh; simp only [hh, if_false] at hd; exact h p' s' i' hd

theorem ensure_val {la : Nat → Nat → Nat → Rat} {c : Cache} (h : CacheOk la c) (p s i : Nat) :
    c.ensure la p s i p s i = la p s i := by
  unfold Cache.ensure
  split
  · rename_i hd; exact h p s i hd
  · simp [Cache.store]

theorem cacheOk_empty (la : Nat → Nat → Nat → Rat) : CacheOk la Cache.empty := by
  intro p s i h
  simp [Cache.isDefined, Cache.empty, invalidVal] at h

/-! ### The matrices as a recursion on the target position -/

/-- One step of the maximisation. -/
def cellStep (f : Nat → Rat) (b : Rat × Nat) (it : Nat) : Rat × Nat := if f it > b.1 then (f it, it) else b

/-- Value and predecessor of the cell of source position `i` and target position `j`. -/
def cell (S : Scores) (nsrc trg : List Nat) (slen : Nat) : Nat → Nat → Rat × Nat
  | _, 0 => (small, 0)
  | i, j + 1 =>
    if j = 0 then (S.la 0 slen i + lexCell S nsrc trg i 1, 0)
    else forUp nsrc.length
      (cellStep fun it => (cell S nsrc trg slen it j).1 + S.la it slen i + lexCell S nsrc trg i (j + 1)) (small, 0)

theorem cell_one (S : Scores) (nsrc trg : List Nat) (slen i : Nat) :
    cell S nsrc trg slen i 1 = (S.la 0 slen i + lexCell S nsrc trg i 1, 0) := by
  rw [cell, if_pos rfl]

theorem cell_succ (S : Scores) (nsrc trg : List Nat) (slen i : Nat) {j : Nat} (hj : j ≠ 0) :
    cell S nsrc trg slen i (j + 1) = forUp nsrc.length
      (cellStep fun it => (cell S nsrc trg slen it j).1 + S.la it slen i + lexCell S nsrc trg i (j + 1)) (small, 0) := by
  rw [cell, if_neg hj]

/-- Invariant of the loops: the cells of the columns before `j`, and the first `k` cells of column `j`, are final; the
others hold their initial value. -/
structure VInv (S : Scores) (nsrc trg : List Nat) (slen j k : Nat) (st : VSt) : Prop where
  done : ∀ i j', 1 ≤ i → i ≤ nsrc.length → 1 ≤ j' → (j' < j ∨ (j' = j ∧ i ≤ k)) →
    (st.vit i j', st.pred i j') = cell S nsrc trg slen i j'
  rest : ∀ i j', (j < j' ∨ (j' = j ∧ k < i) ∨ i = 0) → (st.vit i j', st.pred i j') = (small, 0)
  ok : CacheOk S.la st.cache

theorem vitInner_loop {S : Scores} {nsrc trg : List Nat} {slen j k : Nat} {st : VSt} (hj : 1 < j)
    (h : VInv S nsrc trg slen j k st) (hk : k < nsrc.length) :
    VInv S nsrc trg slen j (k + 1) (forUp nsrc.length (vitInner S nsrc trg slen (k + 1) j) st) := by
  obtain ⟨j, rfl⟩ : ∃ j0, j = j0 + 1 := ⟨j - 1, by omega⟩
  have hj0 : j ≠ 0 := by omega
  have key := forUp_inv (n := nsrc.length) (f := vitInner S nsrc trg slen (k + 1) (j + 1)) (s := st)
    (fun m st' =>
      (∀ i' j', ¬ (i' = k + 1 ∧ j' = j + 1) → (st'.vit i' j', st'.pred i' j') = (st.vit i' j', st.pred i' j')) ∧
      (st'.vit (k + 1) (j + 1), st'.pred (k + 1) (j + 1)) = forUp m
        (cellStep fun it => (cell S nsrc trg slen it j).1 + S.la it slen (k + 1) + lexCell S nsrc trg (k + 1) (j + 1))
        (small, 0) ∧ CacheOk S.la st'.cache)
    ⟨fun _ _ _ => rfl, h.rest (k + 1) (j + 1) (Or.inr (Or.inl ⟨rfl, Nat.lt_succ_self _⟩)), h.ok⟩ ?_
  · obtain ⟨k1, k2, k3⟩ := key
    refine ⟨?_, ?_, k3⟩
    · intro i j' h1 h2 h3 h4
      by_cases hc : i = k + 1 ∧ j' = j + 1
      · obtain ⟨rfl, rfl⟩ := hc
        rw [k2, cell_succ _ _ _ _ _ hj0]
      · rw [k1 i j' hc]; exact h.done i j' h1 h2 h3 (by omega)
    · intro i j' h1
      rw [k1 i j' (by omega)]; exact h.rest i j' (by omega)
  · rintro m st' hm ⟨k1, k2, k3⟩
    have hprev : st'.vit (m + 1) j = (cell S nsrc trg slen (m + 1) j).1 := by
      have e1 := k1 (m + 1) j (by omega)
      have e2 := h.done (m + 1) j (by omega) (by omega) (by omega) (Or.inl (by omega))
      rw [← e2, ← e1]
    have hv := ensure_val k3 (m + 1) slen (k + 1)
    have hv1 : st'.vit (k + 1) (j + 1) = _ := congrArg Prod.fst k2
    have hok := cacheOk_ensure k3 (m + 1) slen (k + 1)
    rw [forUp_succ, ← k2]
    unfold vitInner cellStep
    dsimp only
    rw [Nat.add_sub_cancel, hprev, hv]
    split
    · refine ⟨?_, by dsimp only; rw [Mat.put_self, Mat.put_self], hok⟩
      intro i' j' hne
      dsimp only
      rw [Mat.put_ne _ _ hne, Mat.put_ne _ _ hne]; exact k1 i' j' hne
    · exact ⟨k1, rfl, hok⟩

theorem vitCell_inv {S : Scores} {nsrc trg : List Nat} {slen j k : Nat} {st : VSt} (hj : 1 ≤ j)
    (h : VInv S nsrc trg slen j k st) (hk : k < nsrc.length) :
    VInv S nsrc trg slen j (k + 1) (vitCell S nsrc trg slen j st (k + 1)) := by
  unfold vitCell
  by_cases h1 : j = 1
  · rw [if_pos h1]; subst h1
    unfold vitFirst
    dsimp only
    refine ⟨?_, ?_, cacheOk_ensure h.ok _ _ _⟩
    · intro i j' a1 a2 a3 a4
      dsimp only
      by_cases hc : i = k + 1 ∧ j' = 1
      · obtain ⟨rfl, rfl⟩ := hc
        rw [Mat.put_self, Mat.put_self, ensure_val h.ok, cell_one]
      · rw [Mat.put_ne _ _ hc, Mat.put_ne _ _ hc]; exact h.done i j' a1 a2 a3 (by omega)
    · intro i j' a1
      dsimp only
      rw [Mat.put_ne _ _ (by omega), Mat.put_ne _ _ (by omega)]; exact h.rest i j' (by omega)
  · rw [if_neg h1]; exact vitInner_loop (by omega) h hk

theorem viterbi_inv (S : Scores) (nsrc trg : List Nat) {c : Cache} (hc : CacheOk S.la c) :
    VInv S nsrc trg (getSrcLen nsrc) (trg.length + 1) 0 (viterbi S nsrc trg c) := by
  unfold viterbi
  dsimp only
  refine forUp_inv (fun j st => VInv S nsrc trg (getSrcLen nsrc) (j + 1) 0 st) ?_ ?_
  · exact ⟨fun i j' _ _ h1 h2 => by omega, fun _ _ _ => rfl, hc⟩
  · intro j st hj h
    have := forUp_inv (n := nsrc.length) (f := vitCell S nsrc trg (getSrcLen nsrc) (j + 1)) (s := st)
      (fun k st' => VInv S nsrc trg (getSrcLen nsrc) (j + 1) k st') h
      (fun k st' hk hp => vitCell_inv (by omega) hp hk)
    refine ⟨?_, ?_, this.ok⟩
    · intro i j' a1 a2 a3 a4
      exact this.done i j' a1 a2 a3 (by omega)
    · intro i j' a1
      exact this.rest i j' (by omega)

/-! ### Maximisation -/

theorem cellLoop (f : Nat → Rat) (v0 : Rat) (n : Nat) :
    let r := forUp n (cellStep f) (v0, 0)
    (v0 ≤ r.1 ∧ ∀ it, 1 ≤ it → it ≤ n → f it ≤ r.1) ∧
      (r = (v0, 0) ∨ (v0 < r.1 ∧ 1 ≤ r.2 ∧ r.2 ≤ n ∧ r.1 = f r.2)) := by
  refine forUp_inv (fun m r => (v0 ≤ r.1 ∧ ∀ it, 1 ≤ it → it ≤ m → f it ≤ r.1) ∧
      (r = (v0, 0) ∨ (v0 < r.1 ∧ 1 ≤ r.2 ∧ r.2 ≤ m ∧ r.1 = f r.2))) ?_ ?_
  · exact ⟨⟨Rat.le_refl, fun it h1 h2 => by omega⟩, Or.inl rfl⟩
  · rintro m r hm ⟨⟨h1, h2⟩, h3⟩
    unfold cellStep
    split
    · rename_i hlt
      dsimp only at *
      refine ⟨⟨by grind, ?_⟩, Or.inr ⟨by grind, by omega, Nat.le_refl _, rfl⟩⟩
      intro it a b
      by_cases hit : it = m + 1
      · subst hit; exact Rat.le_refl
      · have := h2 it a (by omega); grind
    · rename_i hlt
      refine ⟨⟨h1, ?_⟩, ?_⟩
      · intro it a b
        by_cases hit : it = m + 1
        · subst hit; exact Rat.not_lt.1 hlt
        · exact h2 it a (by omega)
      · rcases h3 with h3 | ⟨a, b, c, d⟩
        · exact Or.inl h3
        · exact Or.inr ⟨a, b, by omega, d⟩

theorem vitLast_spec (n J : Nat) (vit : Mat Rat) (hn : 1 ≤ n) :
    let b := vitLast n J vit
    1 ≤ b.2 ∧ b.2 ≤ n ∧ b.1 = vit b.2 J ∧ ∀ i, 1 ≤ i → i ≤ n → vit i J ≤ b.1 := by
  obtain ⟨n, rfl⟩ : ∃ m, n = m + 1 := ⟨n - 1, by omega⟩
  unfold vitLast
  rw [Nat.add_sub_cancel]
  clear hn
  induction n with
  | zero =>
    refine ⟨Nat.le_refl _, Nat.le_refl _, rfl, ?_⟩
    intro i h1 h2
    have : i = 1 := by omega
    subst this; exact Rat.le_refl
  | succ n ih =>
    rw [List.range'_concat, List.foldl_append]
    simp only [List.foldl_cons, List.foldl_nil, Nat.one_mul]
    obtain ⟨r, hr⟩ : ∃ r, r = List.foldl (fun (b : Rat × Nat) i => if b.1 < vit i J then (vit i J, i) else b) (vit 1 J, 1)
      (List.range' 2 n) := ⟨_, rfl⟩
    rw [← hr] at ih ⊢
    obtain ⟨h1, h2, h3, h4⟩ := ih
    split
    · rename_i hlt
      refine ⟨by dsimp only; omega, by dsimp only; omega, rfl, ?_⟩
      intro i a b
      dsimp only
      by_cases hi : i = 2 + n
      · subst hi; exact Rat.le_refl
      · have := h4 i a (by omega); grind
    · rename_i hlt
      refine ⟨h1, by omega, h3, ?_⟩
      intro i a b
      by_cases hi : i = 2 + n
      · subst hi; exact Rat.not_lt.1 hlt
      · exact h4 i a (by omega)

end Thot.Hmm
