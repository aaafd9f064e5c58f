import Verif.Ibm.Model
import Verif.Hmm.PropsSuff
/-!
# C123, C124, C125: scores of sentence pairs and alignments in IBM models 1 and 2

Specification: an alignment gives each target position a source position (0 is the null word); its joint probability with
the target sentence is written directly from the definition of the models.
-/
namespace Thot.Ibm

open Thot Thot.Sum Thot.Hmm

/-! ### Specification -/

/-- Product over a list. -/
def prodBy {A : Type} (f : A → Rat) (l : List A) : Rat := (l.map f).prod

/-- All the sequences of `J` elements of a list. -/
def seqs (T : List Nat) : Nat → List (List Nat)
  | 0 => [[]]
  | J + 1 => (seqs T J).flatMap fun a => T.map fun i => a ++ [i]

/-- All the alignments of `J` target positions to `n` source positions. -/
def aligs (n J : Nat) : List (List Nat) := seqs (List.range n) J

/-- Word at a source position, where 0 is the null word (index 0). -/
def srcAt (src : List Nat) (i : Nat) : Nat := (0 :: src).getD i 0

/-- Joint probability of target sentence `trg` and alignment `a` given `src`: the probability of the length, and for each
target position the lexical probability and that of the alignment: uniform (1/(I+1)) or a parameter. -/
def jointP (k : Kind) (p : Pars) (len : Rat) (src trg a : List Nat) : Rat :=
  len * prodBy (fun j => par p.lex (srcAt src (a.getD j 0)) (trg.getD j 0) *
    (match k with
      | .ibm1 => 1 / ((src.length : Rat) + 1)
      | .ibm2 => par p.al (j + 1, src.length, trg.length) (a.getD j 0))) (List.range trg.length)

/-- No parameter is negative. -/
def NonNeg (p : Pars) : Prop := (∀ s t, 0 ≤ par p.lex s t) ∧ ∀ s t, 0 ≤ par p.al s t

/-! ### Lemmas -/

theorem mem_seqs (T : List Nat) (J : Nat) (a : List Nat) : a ∈ seqs T J ↔ a.length = J ∧ ∀ i ∈ a, i ∈ T := by
  induction J generalizing a with
  | zero =>
    unfold seqs
    constructor
    · intro h; rw [List.mem_singleton] at h; subst h; exact ⟨rfl, fun i hi => by cases hi⟩
    · rintro ⟨h, _⟩; rw [List.length_eq_zero_iff.1 h]; exact List.mem_singleton.2 rfl
  | succ J ih =>
    unfold seqs
    simp only [List.mem_flatMap, List.mem_map]
    constructor
    · rintro ⟨b, hb, i, hi, rfl⟩
      obtain ⟨h1, h2⟩ := (ih b).1 hb
      refine ⟨by simp [h1], fun x hx => ?_⟩
      rcases List.mem_append.1 hx with hx | hx
      · exact h2 x hx
      · rw [List.mem_singleton] at hx; subst hx; exact hi
    · rintro ⟨h1, h2⟩
      have hne : a ≠ [] := by rintro rfl; simp at h1
      refine ⟨a.dropLast, (ih _).2 ⟨by simp [h1], fun i hi => h2 i ((List.dropLast_sublist a).mem hi)⟩, a.getLast hne,
        h2 _ (List.getLast_mem hne), ?_⟩
      exact List.dropLast_concat_getLast hne

theorem mem_aligs (n J : Nat) (a : List Nat) : a ∈ aligs n J ↔ a.length = J ∧ ∀ i ∈ a, i < n := by
  unfold aligs
  rw [mem_seqs]
  simp only [List.mem_range]

theorem seqs_nodup (T : List Nat) (hT : T.Nodup) (J : Nat) : (seqs T J).Nodup := by
  induction J with
  | zero => unfold seqs; exact List.nodup_cons.2 ⟨List.not_mem_nil, List.nodup_nil⟩
  | succ J ih =>
    unfold seqs
    apply nodup_flatMap _ _ ih
    · intro a _
      exact nodup_map_inj _ _ hT (fun i i' h => by simpa using h)
    · intro a ha b hb c hc hc'
      obtain ⟨i, _, rfl⟩ := List.mem_map.1 hc
      obtain ⟨i', _, h⟩ := List.mem_map.1 hc'
      exact (List.append_inj h (by rw [((mem_seqs T J a).1 ha).1, ((mem_seqs T J b).1 hb).1])).1.symm

theorem aligs_nodup (n J : Nat) : (aligs n J).Nodup := seqs_nodup _ List.nodup_range J

theorem prodBy_nil {A : Type} (f : A → Rat) : prodBy f [] = 1 := rfl
theorem prodBy_cons {A : Type} (f : A → Rat) (a : A) (l : List A) : prodBy f (a :: l) = f a * prodBy f l := by
  simp [prodBy]
theorem prodBy_append {A : Type} (f : A → Rat) (l m : List A) : prodBy f (l ++ m) = prodBy f l * prodBy f m := by
  induction l with
  | nil => rw [List.nil_append, prodBy_nil]; grind
  | cons a l ih => rw [List.cons_append, prodBy_cons, prodBy_cons, ih]; grind
theorem prodBy_congr {A : Type} {f g : A → Rat} {l : List A} (h : ∀ a ∈ l, f a = g a) : prodBy f l = prodBy g l := by
  unfold prodBy; rw [List.map_congr_left h]
theorem prodBy_mul {A : Type} (f g : A → Rat) (l : List A) : prodBy (fun a => f a * g a) l = prodBy f l * prodBy g l := by
  induction l with
  | nil => simp only [prodBy_nil]; grind
  | cons a l ih => simp only [prodBy_cons, ih]; grind
theorem prodBy_nonneg {A : Type} {f : A → Rat} {l : List A} (h : ∀ a ∈ l, 0 ≤ f a) : 0 ≤ prodBy f l := by
  induction l with
  | nil => rw [prodBy_nil]; decide
  | cons a l ih =>
    rw [prodBy_cons]
    exact Rat.mul_nonneg (h a List.mem_cons_self) (ih fun x hx => h x (List.mem_cons_of_mem _ hx))
theorem prodBy_le {A : Type} {f g : A → Rat} {l : List A} (h0 : ∀ a ∈ l, 0 ≤ f a) (h : ∀ a ∈ l, f a ≤ g a) :
    prodBy f l ≤ prodBy g l := by
  induction l with
  | nil => exact Rat.le_refl
  | cons a l ih =>
    rw [prodBy_cons, prodBy_cons]
    have i := ih (fun x hx => h0 x (List.mem_cons_of_mem _ hx)) (fun x hx => h x (List.mem_cons_of_mem _ hx))
    have n := prodBy_nonneg (l := l) (f := f) (fun x hx => h0 x (List.mem_cons_of_mem _ hx))
    have a0 := h0 a List.mem_cons_self
    have a1 := h a List.mem_cons_self
    exact Rat.le_trans (Rat.mul_le_mul_of_nonneg_right a1 n) (Rat.mul_le_mul_of_nonneg_left i (Rat.le_trans a0 a1))

theorem foldl_prod {A : Type} (f : A → Rat) (l : List A) (c : Rat) : l.foldl (fun a x => a * f x) c = c * prodBy f l := by
  induction l generalizing c with
  | nil => rw [prodBy_nil]; simp only [List.foldl_nil]; grind
  | cons a l ih => rw [List.foldl_cons, ih, prodBy_cons]; grind

theorem foldl_sum {A : Type} (f : A → Rat) (l : List A) (c : Rat) : l.foldl (fun a x => a + f x) c = c + sumBy f l := by
  induction l generalizing c with
  | nil => rw [sumBy_nil]; simp only [List.foldl_nil]; grind
  | cons a l ih => rw [List.foldl_cons, ih, sumBy_cons]; grind

theorem aProbIbm1_eq (slen tlen : Nat) : aProbIbm1 slen tlen = prodBy (fun _ => 1 / ((slen : Rat) + 1)) (List.range tlen) := by
  unfold aProbIbm1
  rw [show (fun (a : Rat) (_ : Nat) => a / ((slen : Rat) + 1)) = fun a _ => a * (1 / ((slen : Rat) + 1)) by
    funext a _; grind]
  rw [foldl_prod]; grind

/-- The sum over sequences of a product over positions is the product of the sums. -/
theorem sum_seqs (f : Nat → Nat → Rat) (T : List Nat) (J : Nat) :
    sumBy (fun a => prodBy (fun j => f (a.getD j 0) j) (List.range J)) (seqs T J) =
      prodBy (fun j => sumBy (fun i => f i j) T) (List.range J) := by
  induction J with
  | zero => show sumBy _ [[]] = _; rw [sumBy_cons, sumBy_nil]; simp [prodBy] <;> grind
  | succ J ih =>
    rw [List.range_succ, prodBy_append, ← ih]
    rw [show seqs T (J + 1) = (seqs T J).flatMap fun a => T.map fun i => a ++ [i] from rfl, sumBy_flatMap,
      ← sumBy_mul_right]
    apply sumBy_congr
    intro a ha
    have hl := ((mem_seqs T J a).1 ha).1
    rw [sumBy_map, show prodBy (fun j => sumBy (fun i => f i j) T) [J] = sumBy (fun i => f i J) T by
      rw [prodBy_cons, prodBy_nil]; grind, ← sumBy_mul]
    apply sumBy_congr
    intro i _
    rw [prodBy_append, prodBy_cons, prodBy_nil]
    have e1 : prodBy (fun j => f ((a ++ [i]).getD j 0) j) (List.range J) =
        prodBy (fun j => f (a.getD j 0) j) (List.range J) := by
      apply prodBy_congr
      intro j hj
      rw [List.mem_range] at hj
      rw [List.getD_eq_getElem?_getD, List.getD_eq_getElem?_getD, List.getElem?_append_left (by omega)]
    have e2 : (a ++ [i]).getD J 0 = i := by
      rw [List.getD_eq_getElem?_getD, List.getElem?_append_right (by omega)]; simp [hl]
    rw [e1, e2]; grind

theorem sum_aligs (f : Nat → Nat → Rat) (n J : Nat) :
    sumBy (fun a => prodBy (fun j => f (a.getD j 0) j) (List.range J)) (aligs n J) =
      prodBy (fun j => sumBy (fun i => f i j) (List.range n)) (List.range J) := sum_seqs f (List.range n) J

/-- The joint probability with the factors of the code. -/
theorem joint_cells (k : Kind) (p : Pars) (len : Rat) (src trg a : List Nat) :
    jointP k p len src trg a = front k len src.length trg.length *
      prodBy (fun j => cellP k p (addNull src) trg (a.getD j 0) j) (List.range trg.length) := by
  unfold jointP front cellP addNull aFactor
  cases k with
  | ibm1 =>
    dsimp only
    rw [prodBy_mul, aProbIbm1_eq]
    simp only [srcAt]
    rw [prodBy_mul, show prodBy (fun _ => (1 : Rat)) (List.range trg.length) = 1 by
      induction List.range trg.length with
      | nil => rfl
      | cons x l ih => rw [prodBy_cons, ih]; grind]
    grind
  | ibm2 =>
    dsimp only
    simp [srcAt]

/-! ### C123: the probability of a sentence pair -/

/-- C123 (IBM 1): for sentences of acceptable length, the probability of the pair is the sum over all the alignments of
their joint probabilities; otherwise it is 0. -/
theorem C123_ibm1 (p : Pars) (len : Rat) (src trg : List Nat) :
    calcProb .ibm1 p len src trg =
      if 1 ≤ src.length ∧ src.length ≤ 1024 ∧ 1 ≤ trg.length ∧ trg.length ≤ 1024 then
        sumBy (jointP .ibm1 p len src trg) (aligs (src.length + 1) trg.length)
      else 0 := by
  have hok : (lenOk src && lenOk trg) = true ↔
      1 ≤ src.length ∧ src.length ≤ 1024 ∧ 1 ≤ trg.length ∧ trg.length ≤ 1024 := by
    unfold lenOk
    cases src <;> cases trg <;> simp <;> omega
  unfold calcProb
  dsimp only
  by_cases h : (lenOk src && lenOk trg) = true
  · rw [if_pos h, if_pos (hok.1 h)]
    rw [sumBy_congr (g := fun a => front .ibm1 len src.length trg.length *
      prodBy (fun j => cellP .ibm1 p (addNull src) trg (a.getD j 0) j) (List.range trg.length))
      (fun a _ => joint_cells .ibm1 p len src trg a), sumBy_mul, sum_aligs (fun i j => cellP .ibm1 p (addNull src) trg i j)]
    unfold calcSum
    rw [foldl_prod]
    simp only [foldl_sum]
    have : ∀ x : Rat, 0 + x = x := by intro x; grind
    simp only [this]
    have h1 : ∀ x : Rat, 1 * x = x := by intro x; grind
    simp [addNull, h1]
  · rw [if_neg h, if_neg (fun hh => h (hok.2 hh))]

/-- C123 (IBM 2): the same, for sentences of any length. -/
theorem C123_ibm2 (p : Pars) (len : Rat) (src trg : List Nat) :
    calcProb .ibm2 p len src trg = sumBy (jointP .ibm2 p len src trg) (aligs (src.length + 1) trg.length) := by
  unfold calcProb
  dsimp only
  rw [sumBy_congr (g := fun a => front .ibm2 len src.length trg.length *
    prodBy (fun j => cellP .ibm2 p (addNull src) trg (a.getD j 0) j) (List.range trg.length))
    (fun a _ => joint_cells .ibm2 p len src trg a), sumBy_mul, sum_aligs (fun i j => cellP .ibm2 p (addNull src) trg i j)]
  unfold calcSum
  rw [foldl_prod]
  simp only [foldl_sum]
  have : ∀ x : Rat, 0 + x = x := by intro x; grind
  simp only [this]
  have h1 : ∀ x : Rat, 1 * x = x := by intro x; grind
  simp [addNull, h1]

/-! ### Best alignments -/

theorem inv_nonneg' (n : Nat) : (0 : Rat) ≤ 1 / ((n : Rat) + 1) := by
  have h : (0 : Rat) ≤ (n : Rat) := Rat.natCast_nonneg
  have h1 : (0 : Rat) < (n : Rat) + 1 := by grind
  apply Rat.le_of_lt
  rw [Rat.lt_div_iff h1]; simp <;> decide


theorem foldl_best (f : Nat → Rat) (h0 : ∀ i, 0 ≤ f i) (l : List Nat) (v : Rat) (b : Nat) (hv : 0 ≤ v) (n : Nat) (hb : b < n)
    (hl : ∀ i ∈ l, i < n) :
    (l.foldl (bestStep f) (v, b)).2 < n ∧ v ≤ (l.foldl (bestStep f) (v, b)).1 ∧
    (∀ i ∈ l, f i ≤ (l.foldl (bestStep f) (v, b)).1) ∧
    ((l.foldl (bestStep f) (v, b)) = (v, b) ∨ f (l.foldl (bestStep f) (v, b)).2 = (l.foldl (bestStep f) (v, b)).1) := by
  induction l generalizing v b with
  | nil => exact ⟨hb, Rat.le_refl, fun i hi => (by cases hi), Or.inl rfl⟩
  | cons i l ih =>
    rw [List.foldl_cons]
    unfold bestStep
    dsimp only
    by_cases h : f i ≠ 0 ∧ v ≤ f i
    · rw [if_pos h]
      obtain ⟨a1, a2, a3, a4⟩ := ih (f i) i (h0 i) (hl i List.mem_cons_self) (fun x hx => hl x (List.mem_cons_of_mem _ hx))
      refine ⟨a1, Rat.le_trans h.2 a2, fun x hx => ?_, Or.inr ?_⟩
      · rcases List.mem_cons.1 hx with rfl | hx
        · exact a2
        · exact a3 x hx
      · rcases a4 with a4 | a4
        · have h1 := congrArg Prod.fst a4
          have h2 := congrArg Prod.snd a4
          dsimp only at h1 h2
          show f (List.foldl (bestStep f) (f i, i) l).2 = (List.foldl (bestStep f) (f i, i) l).1
          rw [h1, h2]
        · exact a4
    · rw [if_neg h]
      obtain ⟨a1, a2, a3, a4⟩ := ih v b hv hb (fun x hx => hl x (List.mem_cons_of_mem _ hx))
      refine ⟨a1, a2, fun x hx => ?_, a4⟩
      rcases List.mem_cons.1 hx with rfl | hx
      · have : f x ≤ v := by
          have := h0 x
          by_cases hz : f x = 0
          · rw [hz]; exact hv
          · have hn : ¬ v ≤ f x := fun hh => h ⟨hz, hh⟩
            grind
        exact Rat.le_trans this a2
      · exact a3 x hx

theorem cellP_nonneg {p : Pars} (hp : NonNeg p) (k : Kind) (ns trg : List Nat) (i j : Nat) : 0 ≤ cellP k p ns trg i j := by
  unfold cellP
  apply Rat.mul_nonneg (hp.1 _ _)
  unfold aFactor
  cases k
  · show (0 : Rat) ≤ 1; decide
  · exact hp.2 _ _

/-- What the loop on target positions leaves. -/
theorem bestAlig_spec {p : Pars} (hp : NonNeg p) (k : Kind) (ns trg : List Nat) (hn : ns ≠ []) (m : Nat) :
    let r := (List.range m).foldl (bestLoop k p ns trg) (1, [], 0)
    r.2.1.length = m ∧ (∀ i ∈ r.2.1, i < ns.length) ∧ r.2.2 < ns.length ∧
    r.1 = prodBy (fun j => cellP k p ns trg (r.2.1.getD j 0) j) (List.range m) ∧
    ∀ j, j < m → ∀ i, i < ns.length → cellP k p ns trg i j ≤ cellP k p ns trg (r.2.1.getD j 0) j := by
  have hpos : 0 < ns.length := List.length_pos_iff.2 hn
  induction m with
  | zero => exact ⟨rfl, fun i hi => (by cases hi), hpos, rfl, fun j hj => by omega⟩
  | succ m ih =>
    dsimp only at ih ⊢
    rw [List.range_succ, List.foldl_append, List.foldl_cons, List.foldl_nil]
    generalize (List.range m).foldl (bestLoop k p ns trg) (1, [], 0) = s at ih
    obtain ⟨a1, a2, a3, a4, a5⟩ := ih
    unfold bestLoop
    dsimp only
    obtain ⟨b0, hb0, hbe⟩ : ∃ b0, b0 < ns.length ∧ b0 = startOf k s.2.2 := by
      cases k
      · exact ⟨_, a3, rfl⟩
      · exact ⟨_, hpos, rfl⟩
    rw [← hbe]
    obtain ⟨c1, c2, c3, c4⟩ := foldl_best (fun i => cellP k p ns trg i m) (fun i => cellP_nonneg hp k ns trg i m)
      (List.range ns.length) 0 b0 Rat.le_refl ns.length hb0 (fun i hi => List.mem_range.1 hi)
    generalize (List.range ns.length).foldl (bestStep fun i => cellP k p ns trg i m) (0, b0) = r at c1 c2 c3 c4
    have hr : cellP k p ns trg r.2 m = r.1 := by
      rcases c4 with c4 | c4
      · have h1 : r.1 = 0 := congrArg Prod.fst c4
        have h2 := c3 r.2 (List.mem_range.2 c1)
        have h3 := cellP_nonneg hp k ns trg r.2 m
        grind
      · exact c4
    have g1 : ∀ j, j < m → (s.2.1 ++ [r.2]).getD j 0 = s.2.1.getD j 0 := by
      intro j hj
      rw [List.getD_eq_getElem?_getD, List.getD_eq_getElem?_getD, List.getElem?_append_left (by omega)]
    have g2 : (s.2.1 ++ [r.2]).getD m 0 = r.2 := by
      rw [List.getD_eq_getElem?_getD, List.getElem?_append_right (by omega)]; simp [a1]
    refine ⟨by simp [a1], ?_, c1, ?_, ?_⟩
    · intro i hi
      rcases List.mem_append.1 hi with hi | hi
      · exact a2 i hi
      · rw [List.mem_singleton] at hi; subst hi; exact c1
    · have e : prodBy (fun j => cellP k p ns trg ((s.2.1 ++ [r.2]).getD j 0) j) (List.range m) = s.1 := by
        rw [a4]
        exact prodBy_congr fun j hj => by rw [g1 j (List.mem_range.1 hj)]
      rw [prodBy_append, prodBy_cons, prodBy_nil, g2, hr, e]
      simp
    · intro j hj i hi
      by_cases h : j = m
      · subst h; rw [g2, hr]; exact c3 i (List.mem_range.2 hi)
      · rw [g1 j (by omega)]; exact a5 j (by omega) i hi

theorem putLoop_some (I : Nat) (v : List Nat) (j : Nat) (m : WordAlig.Cells) (h : ∀ i ∈ v, i < I + 1) :
    (WordAlig.putLoop I j v m).isSome := by
  induction v generalizing j m with
  | nil => rfl
  | cons p ps ih =>
    unfold WordAlig.putLoop
    have hp := h p List.mem_cons_self
    have ht : ∀ i ∈ ps, i < I + 1 := fun i hi => h i (List.mem_cons_of_mem _ hi)
    by_cases h0 : p > 0
    · rw [if_pos h0, if_pos (by omega)]; exact ih _ _ ht
    · rw [if_neg h0]; exact ih _ _ ht

/-- What `putLoop` writes: cell `(i, j)` is set when position `j` is aligned to source position `i+1`. -/
theorem putLoop_cells (I : Nat) (v : List Nat) (j0 : Nat) (m m' : WordAlig.Cells) (h : WordAlig.putLoop I j0 v m = some m')
    (i j : Nat) :
    m' i j = if j0 ≤ j ∧ j < j0 + v.length ∧ v.getD (j - j0) 0 = i + 1 then 1 else m i j := by
  induction v generalizing j0 m with
  | nil =>
    unfold WordAlig.putLoop at h
    cases h
    rw [if_neg]
    simp only [List.length_nil]; omega
  | cons p ps ih =>
    unfold WordAlig.putLoop at h
    by_cases h0 : p > 0
    · rw [if_pos h0] at h
      by_cases h1 : p - 1 < I
      · rw [if_pos h1] at h
        rw [ih (j0 + 1) _ h]
        unfold WordAlig.upd
        by_cases hj : j = j0
        · subst hj
          have e : (p :: ps).getD (j - j) 0 = p := by simp
          rw [if_neg (by omega), e]
          simp only [List.length_cons]
          by_cases hi : p = i + 1
          · rw [if_pos ⟨by omega, trivial⟩, if_pos ⟨Nat.le_refl _, by omega, hi⟩]
          · rw [if_neg (by omega), if_neg (fun hh => hi hh.2.2)]
        · by_cases hj2 : j0 ≤ j
          · have e : (p :: ps).getD (j - j0) 0 = ps.getD (j - (j0 + 1)) 0 := by
              rw [show j - j0 = (j - (j0 + 1)) + 1 by omega]; simp
            rw [e]
            simp only [List.length_cons]
            by_cases hc : j < j0 + (ps.length + 1) ∧ ps.getD (j - (j0 + 1)) 0 = i + 1
            · rw [if_pos ⟨by omega, by omega, hc.2⟩, if_pos ⟨hj2, hc.1, hc.2⟩]
            · rw [if_neg (fun hh => hc ⟨by omega, hh.2.2⟩), if_neg (fun hh => hj hh.2), if_neg (fun hh => hc ⟨hh.2.1, hh.2.2⟩)]
          · rw [if_neg (by omega), if_neg (by omega), if_neg (by omega)]
      · rw [if_neg h1] at h; cases h
    · rw [if_neg h0] at h
      rw [ih (j0 + 1) _ h]
      by_cases hj : j = j0
      · subst hj
        have e : (p :: ps).getD (j - j) 0 = p := by simp
        rw [if_neg (by omega), e, if_neg (by omega)]
      · by_cases hj2 : j0 ≤ j
        · have e : (p :: ps).getD (j - j0) 0 = ps.getD (j - (j0 + 1)) 0 := by
            rw [show j - j0 = (j - (j0 + 1)) + 1 by omega]; simp
          rw [e]
          simp only [List.length_cons]
          by_cases hc : j < j0 + (ps.length + 1) ∧ ps.getD (j - (j0 + 1)) 0 = i + 1
          · rw [if_pos ⟨by omega, by omega, hc.2⟩, if_pos ⟨hj2, hc.1, hc.2⟩]
          · rw [if_neg (fun hh => hc ⟨by omega, hh.2.2⟩), if_neg (fun hh => hc ⟨hh.2.1, hh.2.2⟩)]
        · rw [if_neg (by omega), if_neg (by omega)]

/-- The matrix of an alignment: source word `i` (from 0) is linked to target position `j` when `j` is aligned to source
position `i+1` (position 0 is the null word). -/
def IsMatrixOf (src trg a : List Nat) (m : WordAlig.Mat) : Prop :=
  m.I = src.length ∧ m.J = trg.length ∧
  ∀ i j, i < src.length → j < trg.length → m.m i j = if a.getD j 0 = i + 1 then 1 else 0

/-- C124: for sentences of acceptable length (any length in IBM 2), the best alignment is found without writing out of the
matrix, its score is its joint probability and no alignment has a greater one, and the matrix is that of the alignment. -/
theorem C124_best (k : Kind) (p : Pars) (hp : NonNeg p) (len : Rat) (hlen : 0 ≤ len) (src trg : List Nat)
    (hk : k = .ibm1 → 1 ≤ src.length ∧ src.length ≤ 1024 ∧ 1 ≤ trg.length ∧ trg.length ≤ 1024) :
    ∃ (a : List Nat) (m : WordAlig.Mat), a ∈ aligs (src.length + 1) trg.length ∧
      obtainBest k p len src trg = some (jointP k p len src trg a, m) ∧ IsMatrixOf src trg a m ∧
      ∀ b ∈ aligs (src.length + 1) trg.length, jointP k p len src trg b ≤ jointP k p len src trg a := by
  obtain ⟨a1, a2, _, a4, a5⟩ := bestAlig_spec hp k (addNull src) trg (by simp [addNull]) trg.length
  have hl : (addNull src).length = src.length + 1 := by simp [addNull]
  rw [hl] at a2 a5
  obtain ⟨a, ha⟩ : ∃ a, a = (bestAlig k p (addNull src) trg).2.1 := ⟨_, rfl⟩
  have hab : ((List.range trg.length).foldl (bestLoop k p (addNull src) trg) (1, [], 0)).2.1 = a := ha.symm
  rw [hab] at a1 a2 a4 a5
  have hno : ¬ (k = .ibm1 ∧ (lenOk src && lenOk trg) = false) := by
    rintro ⟨h1, h2⟩
    have h3 := hk h1
    unfold lenOk at h2
    cases src <;> cases trg <;> simp_all <;> omega
  obtain ⟨cm, hcm⟩ := Option.isSome_iff_exists.1 (putLoop_some src.length a 0 (fun _ _ => 0) a2)
  refine ⟨a, ⟨src.length, trg.length, cm⟩, (mem_aligs _ _ _).2 ⟨a1, a2⟩, ?_, ⟨rfl, rfl, ?_⟩, ?_⟩
  · unfold obtainBest
    rw [if_neg hno, ← ha]
    unfold WordAlig.putAligVec WordAlig.init
    dsimp only
    rw [if_pos a1, hcm, joint_cells, ← a4]
    rfl
  · intro i j hi hj
    dsimp only
    rw [putLoop_cells _ _ _ _ _ hcm]
    simp only [Nat.sub_zero]
    by_cases h : a.getD j 0 = i + 1
    · rw [if_pos ⟨by omega, by omega, h⟩, if_pos h]
    · rw [if_neg (fun hh => h hh.2.2), if_neg h]
  · intro b hb
    obtain ⟨b1, b2⟩ := (mem_aligs _ _ _).1 hb
    rw [joint_cells, joint_cells]
    apply Rat.mul_le_mul_of_nonneg_left
    · apply prodBy_le
      · intro j _; exact cellP_nonneg hp _ _ _ _ _
      · intro j hj
        rw [List.mem_range] at hj
        apply a5 j hj
        rw [List.getD_eq_getElem?_getD, List.getElem?_eq_getElem (by omega)]
        exact b2 _ (List.getElem_mem _)
    · unfold front
      cases k
      · dsimp only
        apply Rat.mul_nonneg _ hlen
        rw [aProbIbm1_eq]
        apply prodBy_nonneg
        intro x _
        exact inv_nonneg' _
      · exact hlen

/-- C124: outside the accepted lengths IBM 1 gives probability zero and a matrix without links. -/
theorem C124_rejected (p : Pars) (len : Rat) (src trg : List Nat)
    (h : ¬ (1 ≤ src.length ∧ src.length ≤ 1024 ∧ 1 ≤ trg.length ∧ trg.length ≤ 1024)) :
    obtainBest .ibm1 p len src trg = some (0, ⟨src.length, trg.length, fun _ _ => 0⟩) := by
  unfold obtainBest
  rw [if_pos]
  · rfl
  · refine ⟨rfl, ?_⟩
    unfold lenOk
    cases src <;> cases trg <;> simp_all <;> omega

end Thot.Ibm
