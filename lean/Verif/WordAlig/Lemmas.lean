import Verif.WordAlig.Model
namespace Thot.WordAlig

theorem mem_cells {I J : Nat} {c : Nat × Nat} : c ∈ cells I J ↔ c.1 < I ∧ c.2 < J := by
  obtain ⟨a, b⟩ := c
  simp [cells, List.mem_flatMap]

theorem eqMat_iff (A B : Mat) :
    eqMat A B = true ↔ A.I = B.I ∧ A.J = B.J ∧ ∀ i j, i < A.I → j < A.J → A.m i j = B.m i j := by
  unfold eqMat
  split
  · rename_i h; constructor
    · intro h'; cases h'
    · rintro ⟨h1, h2, _⟩; rcases h with h | h
      · exact absurd h1.symm h
      · exact absurd h2.symm h
  · rename_i h
    rw [List.all_eq_true]
    constructor
    · intro h'
      refine ⟨by omega, by omega, fun i j hi hj => ?_⟩
      have := h' (i, j) (mem_cells.2 ⟨hi, hj⟩)
      simpa using (beq_iff_eq.1 this).symm
    · rintro ⟨_, _, h'⟩ c hc
      have := mem_cells.1 hc
      simp [h' c.1 c.2 this.1 this.2]

theorem iAligned_iff (J : Nat) (m : Cells) (i : Nat) : iAligned J m i = true ↔ ∃ j < J, m i j ≠ 0 := by
  simp [iAligned, List.any_eq_true]

theorem jAligned_iff (I : Nat) (m : Cells) (j : Nat) : jAligned I m j = true ↔ ∃ i < I, m i j ≠ 0 := by
  simp [jAligned, List.any_eq_true]

/-! ### Growth -/

/-- `m'` keeps every link of `m` with its value. -/
def Le (m m' : Cells) : Prop := ∀ a b, m a b ≠ 0 → m' a b = m a b

theorem Le.refl (m : Cells) : Le m m := fun _ _ _ => rfl
theorem Le.trans {a b c : Cells} (h1 : Le a b) (h2 : Le b c) : Le a c := by
  intro x y h
  have e := h1 x y h
  rw [h2 x y (by rw [e]; exact h), e]
theorem Le.antisymm {a b : Cells} (h1 : Le a b) (h2 : Le b a) : a = b := by
  funext x y
  by_cases h : a x y = 0
  · by_cases h' : b x y = 0
    · rw [h, h']
    · exact h2 x y h'
  · exact (h1 x y h).symm

/-- `m'` is obtained from `m` by adding links one at a time, each admissible (`Adm`) for the matrix
at that moment. -/
inductive Grow (Adm : Cells → Nat → Nat → Prop) (m : Cells) : Cells → Prop where
  | refl : Grow Adm m m
  | step {m' : Cells} {i j : Nat} : Grow Adm m m' → Adm m' i j → Grow Adm m (upd m' i j 1)

theorem Grow.trans {Adm : Cells → Nat → Nat → Prop} {a b c : Cells} (h1 : Grow Adm a b)
    (h2 : Grow Adm b c) : Grow Adm a c := by
  induction h2 with
  | refl => exact h1
  | step _ ha ih => exact ih.step ha

theorem Grow.one {Adm : Cells → Nat → Nat → Prop} {a : Cells} {i j : Nat} (h : Adm a i j) :
    Grow Adm a (upd a i j 1) := Grow.refl.step h

theorem Grow.mono {P Q : Cells → Nat → Nat → Prop} (hPQ : ∀ m i j, P m i j → Q m i j) {a b : Cells}
    (h : Grow P a b) : Grow Q a b := by
  induction h with
  | refl => exact .refl
  | step _ ha ih => exact ih.step (hPQ _ _ _ ha)

/-- A rule is proper for an `I x J` matrix. -/
def Proper (I J : Nat) (Adm : Cells → Nat → Nat → Prop) : Prop :=
  ∀ m i j, Adm m i j → i < I ∧ j < J ∧ m i j = 0

theorem upd_le {m : Cells} {i j v : Nat} (h : m i j = 0) : Le m (upd m i j v) := by
  intro a b hab
  unfold upd
  rw [if_neg]
  rintro ⟨rfl, rfl⟩; exact hab h

theorem Grow.le {I J : Nat} {Adm : Cells → Nat → Nat → Prop} (hp : Proper I J Adm) {a b : Cells}
    (h : Grow Adm a b) : Le a b := by
  induction h with
  | refl => exact Le.refl _
  | step _ ha ih => exact ih.trans (upd_le (hp _ _ _ ha).2.2)

/-- Links that appear were admissible at some moment. -/
theorem Grow.mem {Adm : Cells → Nat → Nat → Prop} {a b : Cells} (h : Grow Adm a b) (i j : Nat)
    (hb : b i j ≠ 0) : a i j ≠ 0 ∨ ∃ m, Adm m i j := by
  induction h with
  | refl => exact Or.inl hb
  | step _ ha ih =>
    unfold upd at hb
    split at hb
    · rename_i hc; rw [hc.1, hc.2]; exact Or.inr ⟨_, ha⟩
    · exact ih hb

/-- Cells outside are not touched. -/
theorem Grow.outside {I J : Nat} {Adm : Cells → Nat → Nat → Prop} (hp : Proper I J Adm) {a b : Cells}
    (h : Grow Adm a b) (i j : Nat) (ho : ¬ (i < I ∧ j < J)) : b i j = a i j := by
  induction h with
  | refl => rfl
  | @step m' x y _ ha ih =>
    unfold upd
    rw [if_neg, ih]
    rintro ⟨rfl, rfl⟩
    exact ho ⟨(hp _ _ _ ha).1, (hp _ _ _ ha).2.1⟩

/-- Number of empty cells. -/
def zeros (I J : Nat) (m : Cells) : Nat := (cells I J).countP (fun c => m c.1 c.2 == 0)

theorem countP_le_of_imp {α : Type} {p q : α → Bool} {l : List α} (h : ∀ x ∈ l, p x = true → q x = true) :
    l.countP p ≤ l.countP q := by
  induction l with
  | nil => simp
  | cons a l ih =>
    have := ih (fun x hx => h x (by simp [hx]))
    rw [List.countP_cons, List.countP_cons]
    have h1 := h a (by simp)
    cases hp : p a <;> cases hq : q a <;> simp_all; omega

theorem countP_lt_of_imp {α : Type} {p q : α → Bool} {l : List α} (h : ∀ x ∈ l, p x = true → q x = true)
    {a : α} (ha : a ∈ l) (hpa : p a = false) (hqa : q a = true) : l.countP p < l.countP q := by
  induction l with
  | nil => cases ha
  | cons b l ih =>
    rw [List.countP_cons, List.countP_cons]
    have hle := countP_le_of_imp (l := l) (p := p) (q := q) (fun x hx => h x (by simp [hx]))
    rcases List.mem_cons.1 ha with rfl | ha
    · simp [hpa, hqa]; omega
    · have := ih (fun x hx => h x (by simp [hx])) ha
      have h1 := h b (by simp)
      cases hp : p b <;> cases hq : q b <;> simp_all; omega

theorem zeros_lt {I J : Nat} {m m' : Cells} (hle : Le m m') (ho : ∀ i j, ¬ (i < I ∧ j < J) → m' i j = m i j)
    (hne : m ≠ m') : zeros I J m' < zeros I J m := by
  have : ∃ i j, m i j = 0 ∧ m' i j ≠ 0 := by
    apply Classical.byContradiction; intro hc
    apply hne
    apply hle.antisymm
    intro a b hab
    by_cases h : m a b = 0
    · exact absurd ⟨a, b, h, hab⟩ hc
    · exact (hle a b h).symm
  obtain ⟨i, j, h0, h1⟩ := this
  have hin : i < I ∧ j < J := by
    apply Classical.byContradiction; intro hc
    rw [ho i j hc] at h1; exact h1 h0
  apply countP_lt_of_imp (a := (i, j)) _ (mem_cells.2 hin)
  · simpa using h1
  · simpa using h0
  · intro c _ hc
    simp only [beq_iff_eq] at hc ⊢
    apply Classical.byContradiction; intro h
    rw [hle _ _ h] at hc; exact h hc

theorem foldl_grow {α : Type} {Adm : Cells → Nat → Nat → Prop} (f : Cells → α → Cells)
    (l : List α) (hf : ∀ x ∈ l, ∀ m, Grow Adm m (f m x)) (m : Cells) : Grow Adm m (l.foldl f m) := by
  induction l generalizing m with
  | nil => exact .refl
  | cons a l ih =>
    exact (hf a (by simp) m).trans (ih (fun x hx => hf x (by simp [hx])) _)

theorem foldl_fix {α : Type} {f : Cells → α → Cells} {l : List α} (hf : ∀ x ∈ l, ∀ m, Le m (f m x))
    {m : Cells} (h : l.foldl f m = m) : ∀ x ∈ l, f m x = m := by
  have hle : ∀ (l : List α), (∀ x ∈ l, ∀ m, Le m (f m x)) → ∀ m, Le m (l.foldl f m) := by
    intro l
    induction l with
    | nil => intro _ m; exact Le.refl _
    | cons a l ih =>
      intro hf m
      exact (hf a (by simp) m).trans (ih (fun x hx => hf x (by simp [hx])) _)
  induction l with
  | nil => intro x hx; cases hx
  | cons a l ih =>
    have h1 : Le m (f m a) := hf a (by simp) m
    have h2 : Le (f m a) m := by
      have := hle l (fun x hx => hf x (by simp [hx])) (f m a)
      rw [List.foldl_cons] at h; rw [h] at this; exact this
    have e : f m a = m := h2.antisymm h1
    intro x hx
    rcases List.mem_cons.1 hx with rfl | hx
    · exact e
    · rw [List.foldl_cons, e] at h
      exact ih (fun x hx => hf x (by simp [hx])) h x hx

/-! ### The while loops -/

theorem symWhile_loop {I J : Nat} {Adm : Cells → Nat → Nat → Prop} (hp : Proper I J Adm)
    (body : Cells → Cells) (hb : ∀ m, Grow Adm m (body m)) (m : Cells) :
    ∃ n R, (∀ fuel, n ≤ fuel → symWhile body fuel ⟨I, J, m⟩ ⟨I, J, body m⟩ = some ⟨I, J, R⟩) ∧
      Grow Adm m R ∧ body R = R := by
  induction hz : zeros I J m using Nat.strongRecOn generalizing m with
  | ind z ih =>
    by_cases he : body m = m
    · refine ⟨1, m, fun fuel hf => ?_, .refl, he⟩
      obtain ⟨f, rfl⟩ : ∃ f, fuel = f + 1 := ⟨fuel - 1, by omega⟩
      rw [symWhile, he, if_pos]
      rw [eqMat_iff]; simp
    · have hg := hb m
      have hlt := zeros_lt (hg.le hp) (hg.outside hp) (fun h => he h.symm)
      obtain ⟨n, R, h1, h2, h3⟩ := ih _ (by omega) (body m) rfl
      refine ⟨n + 1, R, fun fuel hf => ?_, hg.trans h2, h3⟩
      obtain ⟨f, rfl⟩ : ∃ f, fuel = f + 1 := ⟨fuel - 1, by omega⟩
      rw [symWhile, if_neg]
      · exact h1 f (by omega)
      · intro hq
        obtain ⟨_, _, hq⟩ := (eqMat_iff _ _).1 hq
        apply he
        funext i j
        by_cases hin : i < I ∧ j < J
        · exact hq i j hin.1 hin.2
        · exact hg.outside hp i j hin

theorem symWhile_start {I J : Nat} {Adm : Cells → Nat → Nat → Prop} (hp : Proper I J Adm)
    (body : Cells → Cells) (hb : ∀ m, Grow Adm m (body m)) (m : Cells) :
    ∃ n R, (∀ fuel, n ≤ fuel → symWhile body fuel empty ⟨I, J, m⟩ = some ⟨I, J, R⟩) ∧
      Grow Adm m R ∧ body R = R := by
  by_cases h0 : I = 0 ∧ J = 0
  · obtain ⟨rfl, rfl⟩ := h0
    refine ⟨1, m, fun fuel hf => ?_, .refl, ?_⟩
    · obtain ⟨f, rfl⟩ : ∃ f, fuel = f + 1 := ⟨fuel - 1, by omega⟩
      rw [symWhile, if_pos]; rw [eqMat_iff]; exact ⟨rfl, rfl, fun i j hi _ => absurd hi (Nat.not_lt_zero _)⟩
    · funext i j; exact (hb m).outside hp i j (by simp)
  · obtain ⟨n, R, h1, h2, h3⟩ := symWhile_loop hp body hb m
    refine ⟨n + 1, R, fun fuel hf => ?_, h2, h3⟩
    obtain ⟨f, rfl⟩ : ∃ f, fuel = f + 1 := ⟨fuel - 1, by omega⟩
    rw [symWhile, if_neg]
    · exact h1 f (by omega)
    · intro hq
      obtain ⟨hi, hj, _⟩ := (eqMat_iff _ _).1 hq
      exact h0 ⟨hi, hj⟩

theorem gdfWhile_loop {I J : Nat} {Adm : Cells → Nat → Nat → Prop} (hp : Proper I J Adm)
    (body : Cells → Cells) (hb : ∀ m, Grow Adm m (body m)) (m : Cells) :
    ∃ n R, (∀ fuel, n ≤ fuel → gdfWhile body fuel ⟨I, J, m⟩ ⟨I, J, m⟩ = some ⟨I, J, R⟩) ∧
      Grow Adm m R ∧ body R = R := by
  induction hz : zeros I J m using Nat.strongRecOn generalizing m with
  | ind z ih =>
    by_cases he : body m = m
    · refine ⟨1, m, fun fuel hf => ?_, .refl, he⟩
      obtain ⟨f, rfl⟩ : ∃ f, fuel = f + 1 := ⟨fuel - 1, by omega⟩
      rw [gdfWhile]
      simp only [he]
      rw [if_pos]
      rw [eqMat_iff]; simp
    · have hg := hb m
      have hlt := zeros_lt (hg.le hp) (hg.outside hp) (fun h => he h.symm)
      obtain ⟨n, R, h1, h2, h3⟩ := ih _ (by omega) (body m) rfl
      refine ⟨n + 1, R, fun fuel hf => ?_, hg.trans h2, h3⟩
      obtain ⟨f, rfl⟩ : ∃ f, fuel = f + 1 := ⟨fuel - 1, by omega⟩
      rw [gdfWhile]
      simp only
      rw [if_neg]
      · exact h1 f (by omega)
      · intro hq
        obtain ⟨_, _, hq⟩ := (eqMat_iff _ _).1 hq
        apply he
        funext i j
        by_cases hin : i < I ∧ j < J
        · exact (hq i j hin.1 hin.2).symm
        · exact hg.outside hp i j hin

end Thot.WordAlig
