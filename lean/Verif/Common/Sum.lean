/-! Finite sums of rational numbers over lists: the specification vocabulary `sumBy` and its lemmas
(models no code; used by the word alignment models). -/
namespace Thot.Sum

/-- `∑_{x ∈ l} f x`. -/
def sumBy {A : Type} (f : A → Rat) (l : List A) : Rat := (l.map f).sum

theorem sumBy_nil {A : Type} (f : A → Rat) : sumBy f [] = 0 := rfl

theorem sumBy_cons {A : Type} (f : A → Rat) (a : A) (l : List A) : sumBy f (a :: l) = f a + sumBy f l := by
  simp [sumBy]

theorem sumBy_congr {A : Type} {f g : A → Rat} {l : List A} (h : ∀ a ∈ l, f a = g a) : sumBy f l = sumBy g l := by
  induction l with
  | nil => rfl
  | cons a l ih =>
    rw [sumBy_cons, sumBy_cons, h a List.mem_cons_self, ih (fun x hx => h x (List.mem_cons_of_mem _ hx))]

theorem sumBy_add {A : Type} (f g : A → Rat) (l : List A) : sumBy (fun a => f a + g a) l = sumBy f l + sumBy g l := by
  induction l with
  | nil => simp only [sumBy_nil]; grind
  | cons a l ih => rw [sumBy_cons, sumBy_cons, sumBy_cons, ih]; grind

theorem sumBy_mul {A : Type} (k : Rat) (f : A → Rat) (l : List A) : sumBy (fun a => k * f a) l = k * sumBy f l := by
  induction l with
  | nil => simp [sumBy_nil]
  | cons a l ih => rw [sumBy_cons, sumBy_cons, ih]; grind

theorem sumBy_zero {A : Type} {f : A → Rat} {l : List A} (h : ∀ a ∈ l, f a = 0) : sumBy f l = 0 := by
  induction l with
  | nil => rfl
  | cons a l ih =>
    rw [sumBy_cons, h a List.mem_cons_self, ih (fun x hx => h x (List.mem_cons_of_mem _ hx))]; grind

theorem sumBy_const {A : Type} (k : Rat) (l : List A) : sumBy (fun _ => k) l = (l.length : Rat) * k := by
  induction l with
  | nil => simp [sumBy_nil]
  | cons a l ih => rw [sumBy_cons, ih]; simp only [List.length_cons]; grind

theorem sumBy_single {A : Type} [DecidableEq A] (a : A) (c : Rat) {l : List A} (hn : l.Nodup) :
    sumBy (fun x => if x = a then c else 0) l = if a ∈ l then c else 0 := by
  induction l with
  | nil => simp [sumBy_nil]
  | cons b l ih =>
    obtain ⟨h1, h2⟩ := List.nodup_cons.1 hn
    rw [sumBy_cons, ih h2]
    by_cases hb : b = a
    · subst hb; simp [h1]; grind
    · have : ¬ a = b := fun h => hb h.symm
      simp only [hb, if_false, List.mem_cons, this, false_or]; grind

theorem sumBy_nonneg {A : Type} {f : A → Rat} {l : List A} (h : ∀ a ∈ l, 0 ≤ f a) : 0 ≤ sumBy f l := by
  induction l with
  | nil => exact Rat.le_refl
  | cons a l ih =>
    rw [sumBy_cons]
    have h1 := h a List.mem_cons_self
    have h2 := ih (fun x hx => h x (List.mem_cons_of_mem _ hx))
    grind

theorem sumBy_le {A : Type} {f g : A → Rat} {l : List A} (h : ∀ a ∈ l, f a ≤ g a) : sumBy f l ≤ sumBy g l := by
  induction l with
  | nil => exact Rat.le_refl
  | cons a l ih =>
    rw [sumBy_cons, sumBy_cons]
    have h1 := h a List.mem_cons_self
    have h2 := ih (fun x hx => h x (List.mem_cons_of_mem _ hx))
    grind

theorem sumBy_map {A B : Type} (f : B → Rat) (g : A → B) (l : List A) : sumBy f (l.map g) = sumBy (fun a => f (g a)) l := by
  induction l with
  | nil => rfl
  | cons a l ih => rw [List.map_cons, sumBy_cons, sumBy_cons, ih]

theorem le_sumBy {A : Type} {f : A → Rat} {l : List A} (h : ∀ a ∈ l, 0 ≤ f a) {a : A} (ha : a ∈ l) : f a ≤ sumBy f l := by
  induction l with
  | nil => cases ha
  | cons b l ih =>
    rw [sumBy_cons]
    have h1 := h b List.mem_cons_self
    have h2 := sumBy_nonneg (fun x hx => h x (List.mem_cons_of_mem b hx))
    rcases List.mem_cons.1 ha with rfl | ha
    · grind
    · have h3 := ih (fun x hx => h x (List.mem_cons_of_mem _ hx)) ha
      grind

theorem sumBy_append {A : Type} (f : A → Rat) (l m : List A) : sumBy f (l ++ m) = sumBy f l + sumBy f m := by
  induction l with
  | nil => simp only [List.nil_append, sumBy_nil]; grind
  | cons a l ih => rw [List.cons_append, sumBy_cons, sumBy_cons, ih]; grind

theorem sumBy_mul_right {A : Type} (k : Rat) (f : A → Rat) (l : List A) : sumBy (fun a => f a * k) l = sumBy f l * k := by
  induction l with
  | nil => simp [sumBy_nil]
  | cons a l ih => rw [sumBy_cons, sumBy_cons, ih]; grind

theorem sumBy_flatMap {A B : Type} (f : B → Rat) (g : A → List B) (l : List A) :
    sumBy f (l.flatMap g) = sumBy (fun a => sumBy f (g a)) l := by
  induction l with
  | nil => rfl
  | cons a l ih => rw [List.flatMap_cons, sumBy_append, sumBy_cons, ih]

theorem sumBy_filter {A : Type} (f : A → Rat) (p : A → Bool) (l : List A) :
    sumBy f (l.filter p) = sumBy (fun a => if p a then f a else 0) l := by
  induction l with
  | nil => rfl
  | cons a l ih =>
    rw [sumBy_cons, List.filter_cons]
    by_cases h : p a
    · rw [if_pos h, sumBy_cons, ih, if_pos h]
    · rw [if_neg h, ih, if_neg h]; grind

theorem sumBy_comm {A B : Type} (f : A → B → Rat) (l : List A) (m : List B) :
    sumBy (fun a => sumBy (f a) m) l = sumBy (fun b => sumBy (fun a => f a b) l) m := by
  induction l with
  | nil => rw [sumBy_nil, sumBy_zero]; intro b _; rfl
  | cons a l ih =>
    rw [sumBy_cons, ih, ← sumBy_add]
    exact sumBy_congr (fun b _ => (sumBy_cons (fun a => f a b) a l).symm)

theorem sumBy_perm {A : Type} (f : A → Rat) {l m : List A} (h : l.Perm m) : sumBy f l = sumBy f m := by
  induction h with
  | nil => rfl
  | cons a _ ih => rw [sumBy_cons, sumBy_cons, ih]
  | swap a b l => simp only [sumBy_cons]; grind
  | trans _ _ h1 h2 => rw [h1, h2]

end Thot.Sum
