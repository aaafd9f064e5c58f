import Verif.Online.Model
namespace Thot.Online

/-! ### The schedule -/

theorem count_filterMap {α : Type} (f : α → Option Nat) (s : Nat) : ∀ l : List α,
    (l.filterMap f).count s = l.countP (fun a => f a == some s)
  | [] => rfl
  | a :: l => by
    have ih := count_filterMap f s l
    rw [List.filterMap_cons, List.countP_cons]
    cases h : f a with
    | none => simp [ih]
    | some b =>
      simp only
      rw [List.count_cons, ih]
      by_cases hb : b = s
      · simp [hb]
      · have : ¬ (some b : Option Nat) = some s := by simpa using hb
        simp [hb, this]

theorem countP_range_rev (p : Nat → Bool) (E : Nat) :
    (List.range E).countP p = (List.range E).countP (fun k => p (E - 1 - k)) := by
  have h : (List.range E).reverse = (List.range E).map (fun k => E - 1 - k) := by
    apply List.ext_getElem
    · simp
    · intro i h1 h2
      simp
  rw [← List.countP_reverse, h, List.countP_map]
  rfl

theorem countP_congr' {α : Type} {p q : α → Bool} : ∀ {l : List α}, (∀ a ∈ l, p a = q a) → l.countP p = l.countP q
  | [], _ => rfl
  | a :: l, h => by
    rw [List.countP_cons, List.countP_cons, countP_congr' (fun b hb => h b (List.mem_cons_of_mem _ hb)), h a (List.mem_cons_self ..)]

/-- The position of a sample when `E` divides `R`. -/
theorem sample_pos {E q t k : Nat} (hk : k < E) :
    (t : Int) - ((E * q : Nat) : Int) + ((k + 1 : Nat) : Int) * (q : Int) = (t : Int) - ((E - 1 - k : Nat) : Int) * (q : Int) := by
  have h1 : ((E : Nat) : Int) = ((E - 1 - k : Nat) : Int) + ((k + 1 : Nat) : Int) := by omega
  rw [Int.natCast_mul, h1, Int.add_mul]
  omega

theorem samples_count {E q t : Nat} (hE : 0 < E) (s : Nat) :
    (samples E (E * q) t).count s = (List.range E).countP (fun k => s + k * q == t) := by
  unfold samples
  rw [count_filterMap, countP_range_rev]
  refine countP_congr' ?_
  intro k hk
  have hk' : k < E := List.mem_range.1 hk
  rw [Nat.mul_div_cancel_left q hE]
  have e : (t : Int) - ((E * q : Nat) : Int) + ((E - 1 - k + 1 : Nat) : Int) * (q : Int) = (t : Int) - ((k * q : Nat) : Int) := by
    rw [sample_pos (by omega), show E - 1 - (E - 1 - k) = k from by omega, Int.natCast_mul]
  rw [e]
  by_cases h : (t : Int) - ((k * q : Nat) : Int) ≥ 0
  · rw [if_pos h]
    have : (((t : Int) - ((k * q : Nat) : Int)).toNat = s) ↔ s + k * q = t := by omega
    by_cases h2 : s + k * q = t
    · rw [this.2 h2, beq_self_eq_true, beq_iff_eq.2 h2]
    · have h3 : ¬ ((t : Int) - ((k * q : Nat) : Int)).toNat = s := fun hc => h2 (this.1 hc)
      have h4 : ¬ (some ((t : Int) - ((k * q : Nat) : Int)).toNat = some s) := fun hc => h3 (Option.some.inj hc)
      rw [beq_eq_false_iff_ne.2 h4, beq_eq_false_iff_ne.2 h2]
  · rw [if_neg h]
    have h2 : ¬ s + k * q = t := by omega
    simp [h2]

theorem log_fold {A S P : Type} [DecidableEq P] (o : Ops A S P) : ∀ (l : List Nat) (st : St A P),
    ((l.foldl (sampleStep o) st).log.map (·.1)) = st.log.map (·.1) ++ l
  | [], st => by simp
  | n :: l, st => by
    rw [List.foldl_cons, log_fold o l]
    simp [sampleStep, addNewTransOpts]

theorem train_log {A S P : Type} [DecidableEq P] (o : Ops A S P) {E R : Nat} {st st' : St A P} {s : S}
    (h : trainAligModel o E R st s = some st') :
    st'.log.map (·.1) = st.log.map (·.1) ++ samples E R st.next ∧ st'.next = st.next + 1 := by
  unfold trainAligModel at h
  split at h
  · exact absurd h (by simp)
  · simp only [Option.some.injEq] at h
    rw [← h]
    exact ⟨log_fold o _ _, rfl⟩

theorem countP_split (E s q n T : Nat) :
    (List.range E).countP (fun k => decide (n ≤ s + k * q ∧ s + k * q < n + (T + 1))) =
      (List.range E).countP (fun k => s + k * q == n) + (List.range E).countP (fun k => decide (n + 1 ≤ s + k * q ∧ s + k * q < n + 1 + T)) := by
  induction (List.range E) with
  | nil => rfl
  | cons a l ih =>
    rw [List.countP_cons, List.countP_cons, List.countP_cons, ih]
    simp only [decide_eq_true_eq, beq_iff_eq]
    split <;> split <;> split <;> omega

/-- **C194 (full).** Each sentence pair takes part in the training when it is given. -/
def C194_full : Prop := ∀ (A S P : Type) [DecidableEq P] (o : Ops A S P) (E R : Nat) (st : St A P) (s : S) (st' : St A P),
  trainAligModel o E R st s = some st' → st.next ∈ st'.log.map (·.1)

/-- **C194 (partial: `E` divides `R`).** The number of times sample `s` is used by `ss.length` calls, of which the first
one receives sample `n0`: sample `s` is used by the calls for the samples `s`, `s+R/E`, ..., `s+(E-1)*(R/E)`, once by each
one. -/
theorem C194_visits_partial {A S P : Type} [DecidableEq P] (o : Ops A S P) {E q : Nat} (hE : 0 < E) :
    ∀ (ss : List S) (st st' : St A P), st.log = [] → trainAll o E (E * q) st ss = some st' → ∀ s,
      (st'.log.map (·.1)).count s =
        (List.range E).countP (fun k => decide (st.next ≤ s + k * q ∧ s + k * q < st.next + ss.length)) := by
  have main : ∀ (ss : List S) (st st' : St A P), trainAll o E (E * q) st ss = some st' → ∀ s,
      (st'.log.map (·.1)).count s = (st.log.map (·.1)).count s +
        (List.range E).countP (fun k => decide (st.next ≤ s + k * q ∧ s + k * q < st.next + ss.length)) := by
    intro ss
    induction ss with
    | nil =>
      intro st st' h s
      simp only [trainAll, Option.some.injEq] at h
      subst h
      have : (List.range E).countP (fun k => decide (st.next ≤ s + k * q ∧ s + k * q < st.next + ([] : List S).length)) = 0 := by
        rw [List.countP_eq_zero]
        intro k _
        simp only [List.length_nil, Nat.add_zero, decide_eq_true_eq]
        omega
      rw [this]; omega
    | cons x ss ih =>
      intro st st' h s
      rw [trainAll] at h
      cases h1 : trainAligModel o E (E * q) st x with
      | none => rw [h1] at h; exact absurd h (by simp)
      | some st1 =>
        rw [h1] at h
        simp only at h
        obtain ⟨e1, e2⟩ := train_log o h1
        rw [ih st1 st' h s, e1, e2, List.count_append, samples_count hE, List.length_cons, countP_split]
        omega
  intro ss st st' h0 h s
  rw [main ss st st' h s, h0]
  simp

/-- The sample given is used, if `E` divides `R`. -/
theorem C194_current_partial {A S P : Type} [DecidableEq P] (o : Ops A S P) {E q : Nat} (hE : 0 < E) (st st' : St A P) (x : S)
    (h : trainAligModel o E (E * q) st x = some st') : st.next ∈ st'.log.map (·.1) := by
  rw [(train_log o h).1]
  refine List.mem_append_right _ (List.count_pos_iff.1 ?_)
  rw [samples_count hE]
  refine List.countP_pos_iff.2 ⟨0, List.mem_range.2 hE, by simp⟩

/-- Sample `n` has one phrase pair, `n`. -/
def cxOps : Ops Nat Unit Nat := ⟨fun a _ => a + 1, fun a _ => a, fun _ n => [n]⟩

/-- `E = 2`, `R = 3`: the first sample is not used when it is given. -/
theorem C194_counterexample : ¬ C194_full := by
  intro h
  have h1 := h Nat Unit Nat cxOps 2 3 ⟨0, [], fun _ => 0, 0, []⟩ () _ rfl
  revert h1
  decide

/-! ### C195: counts -/

/-- Specification: the phrase pairs obtained the last time sample `s` was used. -/
def lastExtr {P : Type} (log : List (Nat × List P)) (s : Nat) : List P :=
  ((log.reverse.find? (fun e => e.1 == s)).map (·.2)).getD []

theorem lastExtr_append {P : Type} (log : List (Nat × List P)) (n s : Nat) (l : List P) :
    lastExtr (log ++ [(n, l)]) s = if s = n then l else lastExtr log s := by
  unfold lastExtr
  rw [List.reverse_append, List.reverse_singleton, List.singleton_append, List.find?_cons]
  by_cases h : s = n
  · subst h; simp
  · have : (n == s) = false := beq_eq_false_iff_ne.2 (fun hc => h hc.symm)
    simp [this, h]

/-- Sum over the samples below `N`. -/
def sumTo (f : Nat → Int) : Nat → Int
  | 0 => 0
  | N + 1 => sumTo f N + f N

theorem sumTo_congr {f g : Nat → Int} : ∀ {N : Nat}, (∀ s, s < N → f s = g s) → sumTo f N = sumTo g N
  | 0, _ => rfl
  | N + 1, h => by rw [sumTo, sumTo, sumTo_congr (fun s hs => h s (by omega)), h N (by omega)]

theorem sumTo_change {f g : Nat → Int} {n : Nat} (hfg : ∀ s, s ≠ n → f s = g s) : ∀ {N : Nat}, n < N →
    sumTo g N = sumTo f N - f n + g n
  | 0, h => by omega
  | N + 1, h => by
    rw [sumTo, sumTo]
    by_cases hn : n = N
    · subst hn
      rw [sumTo_congr (f := g) (g := f) (fun s hs => (hfg s (by omega)).symm)]
      omega
    · rw [sumTo_change hfg (N := N) (by omega), hfg N (fun hc => hn hc.symm)]
      omega

theorem incrAll_val {P : Type} [DecidableEq P] (c : Int) : ∀ (l : List P) (tab : P → Int) (p : P),
    incrAll tab l c p = tab p + c * (l.count p : Int)
  | [], tab, p => by simp [incrAll]
  | x :: l, tab, p => by
    have ih := incrAll_val c l (fun q => if q = x then tab q + c else tab q) p
    have e : incrAll tab (x :: l) c p = incrAll (fun q => if q = x then tab q + c else tab q) l c p := rfl
    rw [e, ih, List.count_cons]
    by_cases h : p = x
    · subst h
      simp only [if_true, beq_self_eq_true]
      push_cast
      rw [Int.mul_add]
      omega
    · have : (x == p) = false := beq_eq_false_iff_ne.2 (fun hc => h hc.symm)
      simp [h, this]

theorem grow_get {P : Type} (vec : List (List P)) (n s : Nat) : (grow vec n)[s]?.getD [] = vec[s]?.getD [] := by
  unfold grow
  by_cases h : s < vec.length
  · rw [List.getElem?_append_left h]
  · rw [List.getElem?_append_right (by omega), List.getElem?_eq_none (show vec.length ≤ s by omega)]
    by_cases h2 : s - vec.length < n + 1 - vec.length
    · simp [List.getElem?_replicate, h2]
    · simp [List.getElem?_replicate, h2]

theorem grow_len {P : Type} (vec : List (List P)) (n : Nat) : n < (grow vec n).length := by
  simp [grow]; omega

/-- What holds while the call for sample `t` is executed; `D` is `(E-1)*(R/E)`. -/
structure Inv {A P : Type} [DecidableEq P] (tab0 : P → Int) (D t : Nat) (st : St A P) : Prop where
  stored : ∀ s, st.vec[s]?.getD [] = lastExtr st.log s ∨ s + D < t
  counts : ∀ p N, t ≤ N → st.tab p = tab0 p + sumTo (fun s => ((lastExtr st.log s).count p : Int)) N

theorem inv_sample {A S P : Type} [DecidableEq P] (o : Ops A S P) {tab0 : P → Int} {D t : Nat} {st : St A P} {n : Nat}
    (hst : ∀ s, st.vec[s]?.getD [] = lastExtr st.log s ∨ s + D < t)
    (hct : ∀ p N, t + 1 ≤ N → st.tab p = tab0 p + sumTo (fun s => ((lastExtr st.log s).count p : Int)) N)
    (hn : n ≤ t) (hn2 : t ≤ n + D) :
    (∀ s, (sampleStep o st n).vec[s]?.getD [] = lastExtr (sampleStep o st n).log s ∨ s + D < t) ∧
    (∀ p N, t + 1 ≤ N → (sampleStep o st n).tab p =
      tab0 p + sumTo (fun s => ((lastExtr (sampleStep o st n).log s).count p : Int)) N) := by
  have hold : st.vec[n]?.getD [] = lastExtr st.log n := by
    rcases hst n with h | h
    · exact h
    · omega
  constructor
  · intro s
    simp only [sampleStep, addNewTransOpts]
    rw [lastExtr_append]
    by_cases h : s = n
    · subst h
      simp [grow_len]
    · rw [if_neg h, List.getElem?_set_ne (fun hc => h hc.symm), grow_get]
      exact hst s
  · intro p N hN
    simp only [sampleStep, addNewTransOpts]
    rw [incrAll_val, incrAll_val, grow_get, hold, hct p N hN]
    have hch := sumTo_change (f := fun s => ((lastExtr st.log s).count p : Int))
      (g := fun s => ((lastExtr (st.log ++ [(n, o.extract (o.train st.am n) n)]) s).count p : Int)) (n := n)
      (fun s hs => by simp only [lastExtr_append, if_neg hs]) (N := N) (by omega)
    rw [hch]
    simp only [lastExtr_append, if_true]
    omega

theorem samples_range {E q t : Nat} (hE : 0 < E) {n : Nat} (h : n ∈ samples E (E * q) t) : n ≤ t ∧ t ≤ n + (E - 1) * q := by
  have hc : 0 < (samples E (E * q) t).count n := List.count_pos_iff.2 h
  rw [samples_count hE] at hc
  obtain ⟨k, hk, he⟩ := List.countP_pos_iff.1 hc
  have hk' : k < E := List.mem_range.1 hk
  have he' : n + k * q = t := by simpa using he
  have : k * q ≤ (E - 1) * q := Nat.mul_le_mul_right q (by omega)
  omega

theorem inv_train {A S P : Type} [DecidableEq P] (o : Ops A S P) {tab0 : P → Int} {E q : Nat} (hE : 0 < E) {st st' : St A P} {x : S}
    (hi : Inv tab0 ((E - 1) * q) st.next st) (h : trainAligModel o E (E * q) st x = some st') :
    Inv tab0 ((E - 1) * q) st'.next st' := by
  unfold trainAligModel at h
  rw [if_neg (by omega)] at h
  simp only [Option.some.injEq] at h
  -- the samples
  have hfold : ∀ (l : List Nat) (s0 : St A P), (∀ n ∈ l, n ≤ st.next ∧ st.next ≤ n + (E - 1) * q) →
      (∀ s, s0.vec[s]?.getD [] = lastExtr s0.log s ∨ s + (E - 1) * q < st.next) →
      (∀ p N, st.next + 1 ≤ N → s0.tab p = tab0 p + sumTo (fun s => ((lastExtr s0.log s).count p : Int)) N) →
      (∀ s, (l.foldl (sampleStep o) s0).vec[s]?.getD [] = lastExtr (l.foldl (sampleStep o) s0).log s ∨ s + (E - 1) * q < st.next) ∧
      (∀ p N, st.next + 1 ≤ N → (l.foldl (sampleStep o) s0).tab p =
        tab0 p + sumTo (fun s => ((lastExtr (l.foldl (sampleStep o) s0).log s).count p : Int)) N) := by
    intro l
    induction l with
    | nil => intro s0 _ h1 h2; exact ⟨h1, h2⟩
    | cons n l ih =>
      intro s0 hl h1 h2
      obtain ⟨g1, g2⟩ := hl n (List.mem_cons_self ..)
      obtain ⟨k1, k2⟩ := inv_sample o h1 h2 g1 g2
      exact ih _ (fun m hm => hl m (List.mem_cons_of_mem _ hm)) k1 k2
  obtain ⟨k1, k2⟩ := hfold (samples E (E * q) st.next) { st with am := o.add st.am x }
    (fun n hn => samples_range hE hn) hi.stored (fun p N hN => hi.counts p N (by omega))
  rw [← h]
  refine ⟨?_, fun p N hN => k2 p N hN⟩
  intro s
  simp only
  generalize (samples E (E * q) st.next).foldl (sampleStep o) { st with am := o.add st.am x } = st1 at k1 k2
  unfold discard
  rw [Nat.mul_div_cancel_left q hE]
  split
  · next hc =>
    by_cases hs : s = ((st.next : Int) - ((E - 1 : Nat) : Int) * (q : Int)).toNat
    · right
      rw [← Int.natCast_mul] at hs hc
      omega
    · rw [List.getElem?_set_ne (fun hc => hs hc.symm)]
      rcases k1 s with h1 | h1
      · exact .inl h1
      · right; omega
  · rcases k1 s with h1 | h1
    · exact .inl h1
    · right; omega

/-- **C195 (full).** After any sequence of calls the phrase model has, besides its initial counts, for each sample used the
phrase pairs extracted the last time it was used. -/
def C195_full : Prop := ∀ (A S P : Type) [DecidableEq P] (o : Ops A S P) (E R : Nat) (ss : List S) (st st' : St A P),
  st.log = [] → st.vec = [] → trainAll o E R st ss = some st' →
  ∀ p, st'.tab p = st.tab p + sumTo (fun s => ((lastExtr st'.log s).count p : Int)) st'.next

/-- **C195 (partial: `E` divides `R`).** -/
theorem C195_counts_partial {A S P : Type} [DecidableEq P] (o : Ops A S P) {E q : Nat} (hE : 0 < E) (ss : List S) (st st' : St A P)
    (h0 : st.log = []) (hv : st.vec = []) (h : trainAll o E (E * q) st ss = some st') (p : P) :
    st'.tab p = st.tab p + sumTo (fun s => ((lastExtr st'.log s).count p : Int)) st'.next := by
  have hz : ∀ (P : Type) (N : Nat) (p : P) [DecidableEq P], sumTo (fun s => ((lastExtr ([] : List (Nat × List P)) s).count p : Int)) N = 0 := by
    intro P N p _
    induction N with
    | zero => rfl
    | succ N ih => rw [sumTo, ih]; simp [lastExtr]
  have hi : Inv st.tab ((E - 1) * q) st.next st := by
    refine ⟨?_, ?_⟩
    · intro s; left; rw [h0, hv]; simp [lastExtr]
    · intro p N _
      rw [h0, hz P N p]; omega
  have main : ∀ (ss : List S) (st1 : St A P), Inv st.tab ((E - 1) * q) st1.next st1 → trainAll o E (E * q) st1 ss = some st' →
      Inv st.tab ((E - 1) * q) st'.next st' := by
    intro ss
    induction ss with
    | nil =>
      intro st1 hi h
      simp only [trainAll, Option.some.injEq] at h
      subst h; exact hi
    | cons x ss ih =>
      intro st1 hi h
      rw [trainAll] at h
      cases h1 : trainAligModel o E (E * q) st1 x with
      | none => rw [h1] at h; exact absurd h (by simp)
      | some st2 =>
        rw [h1] at h
        exact ih st2 (inv_train o hE hi h1) h
  exact (main ss st hi h).counts p _ (Nat.le_refl _)

/-- Three sentences, one phrase pair each time, `E = 2`, `R = 3`: the pair of the second sample is added twice. -/
theorem C195_counterexample : ¬ C195_full := by
  intro h
  have h1 := h Nat Unit Nat cxOps 2 3 [(), (), (), ()] ⟨0, [], fun _ => 0, 0, []⟩ _ rfl rfl rfl 1
  revert h1
  decide

/-- The training never fails when `E` is not 0. -/
theorem train_total {A S P : Type} [DecidableEq P] (o : Ops A S P) {E R : Nat} (hE : 0 < E) : ∀ (ss : List S) (st : St A P),
    ∃ st', trainAll o E R st ss = some st' ∧ st'.next = st.next + ss.length
  | [], st => ⟨st, rfl, rfl⟩
  | x :: ss, st => by
    obtain ⟨st1, h1⟩ : ∃ st1, trainAligModel o E R st x = some st1 := by
      unfold trainAligModel
      rw [if_neg (by omega)]
      exact ⟨_, rfl⟩
    obtain ⟨st', h2, h3⟩ := train_total o hE ss st1
    refine ⟨st', by rw [trainAll, h1]; exact h2, ?_⟩
    rw [h3, (train_log o h1).2, List.length_cons]
    omega

/-- `E = 2`, `R = 4`: five sentences, each used twice two calls apart. -/
example : (trainAll cxOps 2 4 ⟨0, [], fun _ => 0, 0, []⟩ [(), (), (), (), ()]).map (fun st => (st.log.map (·.1), st.tab 1, st.tab 4)) =
    some ([0, 1, 0, 2, 1, 3, 2, 4], 1, 1) := by decide

end Thot.Online
