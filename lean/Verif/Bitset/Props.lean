import Verif.Bitset.Lemmas
/-!
Property theorems for `Bitset` (C01–C06, C37). Specification: a bitset is a function `Nat → Bool`
(what `test` should read) or the natural number `value`.
-/
namespace Thot.Bitset

/-! ## C01 – histories of single-bit operations -/

/-- The mutating operations of C01. -/
inductive Op where
  | set (n : Nat) (val : Int)
  | reset (n : Nat)
  | setAll
  | resetAll

/-- Positions used by the operation are below `N`. -/
def Op.InRange (N : Nat) : Op → Prop
  | .set n _ => n < N
  | .reset n => n < N
  | .setAll => True
  | .resetAll => True

/-- Model of one call. -/
def step (ws : Words) : Op → Option Words
  | .set n v => set ws n v
  | .reset n => reset ws n
  | .setAll => some (setAll ws)
  | .resetAll => some (resetAll ws)

/-- Model of a history of calls. -/
def run : Words → List Op → Option Words
  | ws, [] => some ws
  | ws, op :: ops => (step ws op).bind (fun ws' => run ws' ops)

/-- Specification: the value last written to each position. -/
def specStep (f : Nat → Bool) : Op → Nat → Bool
  | .set n v => fun m => if m = n then decide (v ≠ 0) else f m
  | .reset n => fun m => if m = n then false else f m
  | .setAll => fun _ => true
  | .resetAll => fun _ => false

/-- Specification of a history. -/
def specRun (f : Nat → Bool) (ops : List Op) : Nat → Bool := ops.foldl specStep f

theorem step_spec (N : Nat) (ws : Words) (f : Nat → Bool) (op : Op) (hop : op.InRange N)
    (hl : ws.length = numWords N) (hf : ∀ n, n / 32 < ws.length → bit ws n = f n) :
    ∃ ws', step ws op = some ws' ∧ ws'.length = numWords N ∧
      ∀ n, n / 32 < ws'.length → bit ws' n = specStep f op n := by
  have hreset : ∀ n, n < N → ∃ ws', reset ws n = some ws' ∧ ws'.length = numWords N ∧
      ∀ m, m / 32 < ws'.length → bit ws' m = (if m = n then false else f m) := by
    intro n hn
    have h := lt_numWords hn
    rw [← hl] at h
    refine ⟨_, by rw [reset_eq, if_pos h], by simpa using hl, ?_⟩
    intro m hm
    rw [bit_reset _ _ _ h]
    simp only [List.length_set] at hm
    rw [hf m hm]
  cases op with
  | set n v =>
    simp only [Op.InRange] at hop
    simp only [step, specStep]
    by_cases hv : v = 0
    · obtain ⟨ws', h1, h2, h3⟩ := hreset n hop
      refine ⟨ws', by rw [set_eq, if_pos hv, h1], h2, ?_⟩
      simpa [hv] using h3
    · have h := lt_numWords hop
      rw [← hl] at h
      refine ⟨_, by rw [set_eq, if_neg hv, if_pos h], by simpa using hl, ?_⟩
      intro m hm
      rw [bit_set _ _ _ h]
      simp only [List.length_set] at hm
      rw [hf m hm]; simp [hv]
  | reset n => exact hreset n hop
  | setAll =>
    refine ⟨_, rfl, by simpa [setAll] using hl, ?_⟩
    intro m hm
    exact bit_setAll ws m (by simpa [setAll] using hm)
  | resetAll =>
    refine ⟨_, rfl, by simpa [resetAll] using hl, ?_⟩
    intro m _
    exact bit_resetAll ws m

theorem run_spec (N : Nat) (ops : List Op) (hops : ∀ op ∈ ops, op.InRange N) (ws : Words)
    (f : Nat → Bool) (hl : ws.length = numWords N)
    (hf : ∀ n, n / 32 < ws.length → bit ws n = f n) :
    ∃ ws', run ws ops = some ws' ∧ ws'.length = numWords N ∧
      ∀ n, n / 32 < ws'.length → bit ws' n = specRun f ops n := by
  induction ops generalizing ws f with
  | nil => exact ⟨ws, rfl, hl, hf⟩
  | cons op ops ih =>
    obtain ⟨ws1, h1, h2, h3⟩ := step_spec N ws f op (hops op (by simp)) hl hf
    obtain ⟨ws2, h4, h5, h6⟩ := ih (fun o ho => hops o (by simp [ho])) ws1 _ h2 h3
    exact ⟨ws2, by simp [run, h1, h4], h5, h6⟩

/-- **C01.** Any in-range history on a fresh `Bitset<N>` is free of out-of-bounds accesses and leaves a
bitset where `test(n)` reads the value last written to `n`. -/
theorem C01_history (N : Nat) (ops : List Op) (hops : ∀ op ∈ ops, op.InRange N) :
    ∃ ws, run (init N) ops = some ws ∧
      ∀ n < N, test ws n = some (specRun (fun _ => false) ops n) := by
  obtain ⟨ws, h1, h2, h3⟩ := run_spec N ops hops (init N) (fun _ => false) (init_length N)
    (fun n _ => bit_init N n)
  refine ⟨ws, h1, fun n hn => ?_⟩
  have h := lt_numWords hn
  rw [← h2] at h
  rw [test_eq, if_pos h, h3 n h]

example : ∀ op ∈ [Op.set 31 1, Op.set 32 1, Op.setAll, Op.reset 63, Op.set 40 0], op.InRange 70 := by
  simp [Op.InRange]

/-- C01, word operators: `&=`, `|=`, `^=` act position by position. -/
theorem C01_bitwise (x y : Words) (hl : x.length = y.length) (n : Nat) (hn : n < 32 * x.length) :
    (∃ a b, test x n = some a ∧ test y n = some b ∧
      test (andAssign x y) n = some (a && b) ∧ test (orAssign x y) n = some (a || b) ∧
      test (xorAssign x y) n = some (a ^^ b)) := by
  have h1 : n / 32 < x.length := by omega
  have h2 : n / 32 < y.length := by omega
  refine ⟨bit x n, bit y n, by rw [test_eq, if_pos h1], by rw [test_eq, if_pos h2], ?_, ?_, ?_⟩
  · rw [test_eq, if_pos (by simp [andAssign]; omega)]; unfold bit andAssign
    rw [getD_zipWith _ (by decide) _ _ hl, BitVec.getLsbD_and]
  · rw [test_eq, if_pos (by simp [orAssign]; omega)]; unfold bit orAssign
    rw [getD_zipWith _ (by decide) _ _ hl, BitVec.getLsbD_or]
  · rw [test_eq, if_pos (by simp [xorAssign]; omega)]; unfold bit xorAssign
    rw [getD_zipWith _ (by decide) _ _ hl, BitVec.getLsbD_xor]

example : (init 70).length = (setAll (init 70)).length ∧ 69 < 32 * (init 70).length := by decide

/-! ## C02 – count -/

/-- **C02.** `count(J)` is the number of positions below `J` that `test` reads as true (no out-of-bounds
access as long as `J` does not exceed the number of stored bits). -/
theorem C02_count (ws : Words) (J : Nat) (hJ : J ≤ 32 * ws.length) :
    count ws J = some ((List.range J).countP (fun n => test ws n = some true)) := by
  have h := countLoop_eq ws J 0 0 (by omega)
  have e : (1 : Word) <<< (0 % 32) = 1 := by decide
  simp only [Nat.zero_div, e, Nat.zero_add] at h
  unfold count
  rw [h, List.range_eq_range']
  congr 1
  apply List.countP_congr
  intro n hn
  have : n / 32 < ws.length := by
    rw [List.mem_range'_1] at hn; omega
  simp [test_eq, this]

/-- `count()` with the default argument on a `Bitset<N>` is always in bounds. -/
theorem C02_default_in_bounds (N : Nat) : N ≤ 32 * numWords N := by
  unfold numWords; split <;> omega

/-! ## C03 – ordering -/

/-- **C03.** `operator<` orders bitsets as unsigned integers; hence it is a strict total order compatible
with `operator==`, and `operator>` is its converse. -/
theorem C03_lt_is_value_order (x y : Words) (hl : x.length = y.length) :
    lt x y = true ↔ value x < value y := lt_iff hl

/-- `value` really is the integer whose bits are what `test` reads. -/
theorem C03_value_spec (ws : Words) (n : Nat) (hn : n < 32 * ws.length) :
    test ws n = some ((value ws).testBit n) := by
  rw [test_eq, if_pos (by omega), testBit_value]

theorem C03_irrefl (x : Words) : lt x x = false := by
  rw [Bool.eq_false_iff]; intro h; rw [lt_iff rfl] at h; omega

theorem C03_trans (x y z : Words) (h1 : x.length = y.length) (h2 : y.length = z.length)
    (hxy : lt x y = true) (hyz : lt y z = true) : lt x z = true := by
  rw [lt_iff h1] at hxy; rw [lt_iff h2] at hyz; rw [lt_iff (h1.trans h2)]; omega

theorem C03_total (x y : Words) (hl : x.length = y.length) :
    eq x y = true ∨ lt x y = true ∨ lt y x = true := by
  rw [lt_iff hl, lt_iff hl.symm, eq_iff hl]
  rcases Nat.lt_trichotomy (value x) (value y) with h | h | h
  · exact Or.inr (Or.inl h)
  · exact Or.inl (value_inj hl h)
  · exact Or.inr (Or.inr h)

theorem C03_lt_not_eq (x y : Words) (hl : x.length = y.length) (h : lt x y = true) :
    eq x y = false ∧ ne x y = true ∧ lt y x = false := by
  have h' := (lt_iff hl).1 h
  have he : eq x y = false := by
    rw [Bool.eq_false_iff]; intro hc
    rw [(eq_iff hl).1 hc] at h'; omega
  refine ⟨he, by rw [ne_eq_not_eq, he]; rfl, ?_⟩
  rw [Bool.eq_false_iff]; intro hc
  have := (lt_iff hl.symm).1 hc; omega

theorem C03_gt_converse (x y : Words) (hl : x.length = y.length) : gt x y = lt y x := by
  unfold gt lt; exact gtMsw_eq _ _ (by simpa using hl)

example : lt [5#32, 1#32] [3#32, 2#32] = true ∧ lt [3#32, 2#32] [4#32, 2#32] = true := by decide

/-! ## C04 – increment and shift -/

/-- **C04.** `operator++` adds one modulo the storage size. -/
theorem C04_incr (ws : Words) :
    (incr ws).length = ws.length ∧ value (incr ws) = (value ws + 1) % 2 ^ (32 * ws.length) :=
  ⟨incr_length ws, value_incr ws⟩

/-- **C04.** `b>>=k` moves position `n+k` to position `n` and fills with zeros. -/
theorem C04_shr (ws : Words) (k n : Nat) (hn : n < 32 * ws.length) :
    test (shrAssign ws k) n =
      some (if n + k < 32 * ws.length then (value ws).testBit (n + k) else false) := by
  have hlen : (shrAssign ws k).length = ws.length := by
    unfold shrAssign; exact shrLoop_length ..
  rw [test_eq, if_pos (by omega), bit_shrAssign _ _ _ hn]
  congr 1
  split
  · rw [testBit_value]
  · unfold bit
    simp [List.getD_eq_getElem?_getD, List.getElem?_eq_none (by omega : ws.length ≤ (n + k) / 32)]

/-- As an integer: `b>>=k` divides by `2^k`. -/
theorem C04_shr_value (ws : Words) (k : Nat) : value (shrAssign ws k) = value ws / 2 ^ k := by
  have hlen : (shrAssign ws k).length = ws.length := by
    unfold shrAssign; exact shrLoop_length ..
  apply Nat.eq_of_testBit_eq
  intro n
  rw [Nat.testBit_div_two_pow, testBit_value, testBit_value]
  by_cases hn : n < 32 * ws.length
  · rw [bit_shrAssign _ _ _ hn]
  · unfold bit
    rw [List.getD_eq_getElem?_getD, List.getElem?_eq_none (by omega),
      List.getD_eq_getElem?_getD, List.getElem?_eq_none (by omega)]; simp

example : value [0xffffffff#32, 7#32] = 2 ^ 32 * 8 - 1 ∧ 5 < 32 * [0xffffffff#32, 7#32].length := by
  decide

/-! ## C05 – addition -/

/-- Full statement of C05: addition modulo the storage size. -/
def C05_full : Prop := ∀ x y : Words, x.length = y.length →
  value (add x y) = (value x + value y) % 2 ^ (32 * x.length)

/-- **C05 is false of the code**: `0x7fffffff + 0x80000001` loses its carry (the top bit of the left word
was 0). -/
theorem C05_counterexample : ¬ C05_full := by
  intro h
  have := h [0x7fffffff#32, 0#32] [0x80000001#32, 0#32] rfl
  revert this; decide

/-- The carry is also lost when both top bits are set and the sum keeps its top bit set. -/
theorem C05_counterexample2 :
    value (add [0xC0000000#32, 0#32] [0xC0000000#32, 0#32]) ≠
      (value [0xC0000000#32, 0#32] + value [0xC0000000#32, 0#32]) % 2 ^ 64 := by decide

private theorem value_cons (w : Word) (ws : Words) :
    value (w :: ws) = w.toNat + 2 ^ 32 * value ws := rfl

private theorem low_mod (a b M : Nat) (ha : a < 2 ^ 32) :
    (a + 2 ^ 32 * b) % (2 ^ 32 * M) = a + 2 ^ 32 * (b % M) := by
  rw [Nat.add_comm, Nat.mod_mul, Nat.mul_add_mod, Nat.mod_eq_of_lt ha,
    Nat.mul_add_div (by omega), Nat.div_eq_of_lt ha, Nat.add_zero, Nat.add_comm]

private theorem pow_succ_words (n : Nat) : 2 ^ (32 * (n + 1)) = 2 ^ 32 * 2 ^ (32 * n) := by
  rw [← Nat.pow_add]; congr 1; omega

private theorem add_carry_cond (w r : Word) (hr : r.toNat < 2 ^ 31) :
    (w &&& (1 : Word) <<< 31 = (1 : Word) <<< 31 ∧ (w + r) &&& (1 : Word) <<< 31 = 0)
      ↔ 2 ^ 32 ≤ w.toNat + r.toNat := by
  have hsum : (w + r).toNat = (w.toNat + r.toNat) % 2 ^ 32 := BitVec.toNat_add w r
  have hw := w.isLt
  rw [top_cond, top_cond0, hsum]; omega

private theorem step_nocarry (a r A R M V : Nat) (h : a + r < 2 ^ 32) (hV : V = (A + R) % M) :
    (a + r) + 2 ^ 32 * V = (a + 2 ^ 32 * A + (r + 2 ^ 32 * R)) % (2 ^ 32 * M) := by
  have : a + 2 ^ 32 * A + (r + 2 ^ 32 * R) = (a + r) + 2 ^ 32 * (A + R) := by omega
  rw [this, low_mod _ _ _ h, hV]

private theorem step_carry (a r A R M V : Nat) (h : 2 ^ 32 ≤ a + r) (h2 : a + r < 2 ^ 32 + 2 ^ 32)
    (hV : V = (A + 1 + R) % M) :
    (a + r - 2 ^ 32) + 2 ^ 32 * V = (a + 2 ^ 32 * A + (r + 2 ^ 32 * R)) % (2 ^ 32 * M) := by
  have : a + 2 ^ 32 * A + (r + 2 ^ 32 * R) = (a + r - 2 ^ 32) + 2 ^ 32 * (A + 1 + R) := by omega
  rw [this, low_mod _ _ _ (by omega), hV]

private theorem add_cons_carry (w v r : Word) (vs rs : Words)
    (h : w &&& (1 : Word) <<< 31 = (1 : Word) <<< 31 ∧ (w + r) &&& (1 : Word) <<< 31 = 0) :
    add (w :: v :: vs) (r :: rs) = (w + r) :: add ((v + 1) :: vs) rs := by
  rw [add]; exact if_pos h

private theorem add_one_carry (w r : Word) (rs : Words)
    (h : w &&& (1 : Word) <<< 31 = (1 : Word) <<< 31 ∧ (w + r) &&& (1 : Word) <<< 31 = 0) :
    add [w] (r :: rs) = [w + r] := by
  rw [add]; exact if_pos h

private theorem add_cons_nocarry (w r : Word) (ws rs : Words)
    (h : ¬ (w &&& (1 : Word) <<< 31 = (1 : Word) <<< 31 ∧ (w + r) &&& (1 : Word) <<< 31 = 0)) :
    add (w :: ws) (r :: rs) = (w + r) :: add ws rs := by
  cases ws with
  | nil => unfold add; exact (if_neg h).trans (by simp [add])
  | cons v vs => conv => lhs; rw [add]
                 exact if_neg h

/-- **C05 (partial).** Addition is correct when every word of the right operand is below `2^31` and no
word of the left operand above the first is `UINT_MAX`. Missing: the remaining operands, on which
the code is wrong in general (see the counterexamples). -/
theorem C05_add_partial (x y : Words) (hl : x.length = y.length)
    (hy : ∀ r ∈ y, r.toNat < 2 ^ 31) (hx : ∀ w ∈ x.tail, w.toNat ≠ 2 ^ 32 - 1) :
    value (add x y) = (value x + value y) % 2 ^ (32 * x.length) := by
  induction y generalizing x with
  | nil =>
    cases x with
    | nil => simp [add, value]
    | cons => simp at hl
  | cons r rs ih =>
    cases x with
    | nil => simp at hl
    | cons w ws =>
      have hlt : ws.length = rs.length := by simpa using hl
      have hw := w.isLt
      have hr := hy r List.mem_cons_self
      have hrs : ∀ r ∈ rs, r.toNat < 2 ^ 31 := fun a ha => hy a (List.mem_cons_of_mem _ ha)
      rw [List.tail_cons] at hx
      have hsum : (w + r).toNat = (w.toNat + r.toNat) % 2 ^ 32 := BitVec.toNat_add w r
      rw [List.length_cons, pow_succ_words, value_cons w, value_cons r]
      by_cases hc : 2 ^ 32 ≤ w.toNat + r.toNat
      · have hc' := (add_carry_cond w r hr).2 hc
        have h1 : (w + r).toNat = w.toNat + r.toNat - 2 ^ 32 := by rw [hsum]; omega
        cases ws with
        | nil =>
          rw [add_one_carry _ _ _ hc', value_cons, h1]
          exact step_carry _ _ _ _ _ _ hc (by omega) (by simp [value, Nat.mod_one])
        | cons v vs =>
          have hv := hx v List.mem_cons_self
          have hvlt := v.isLt
          have hvs : (v + 1).toNat = v.toNat + 1 := by
            have : (v + 1).toNat = (v.toNat + 1) % 2 ^ 32 := by simp [BitVec.toNat_add]
            rw [this]; omega
          have := ih ((v + 1) :: vs) (by simpa using hlt) hrs
            (fun a ha => hx a (List.mem_cons_of_mem _ ha))
          have e3 : value ((v + 1) :: vs) = value (v :: vs) + 1 := by
            rw [value_cons, value_cons, hvs]; omega
          rw [e3, List.length_cons, ← List.length_cons (a := v)] at this
          rw [add_cons_carry _ _ _ _ _ hc', value_cons, h1]
          exact step_carry _ _ _ _ _ _ hc (by omega) this
      · have hc' := mt (add_carry_cond w r hr).1 hc
        have h1 : (w + r).toNat = w.toNat + r.toNat := by rw [hsum]; omega
        have := ih ws hlt hrs (fun a ha => hx a (List.mem_of_mem_tail ha))
        rw [add_cons_nocarry _ _ _ _ hc', value_cons, h1]
        exact step_nocarry _ _ _ _ _ _ (by omega) this

-- a case with carries meets the hypotheses
example : (∀ r ∈ [1#32, 0x7fffffff#32], r.toNat < 2 ^ 31) ∧
    (∀ w ∈ [0xffffffff#32, 0xfffffffe#32].tail, w.toNat ≠ 2 ^ 32 - 1) := by simp

/-! ## C06 – equality -/

/-- Full statement of C06, for bitsets produced by histories. -/
def C06_full : Prop := ∀ (N : Nat) (ops₁ ops₂ : List Op) (x y : Words),
  (∀ op ∈ ops₁, op.InRange N) → (∀ op ∈ ops₂, op.InRange N) →
  run (init N) ops₁ = some x → run (init N) ops₂ = some y →
  (eq x y = true ↔ ∀ n < N, test x n = test y n)

/-- **C06 is false of the code**: for `N=1`, `set()` and `set(0)` read the same on every in-range position
but compare different (`set()` fills the whole word). -/
theorem C06_counterexample : ¬ C06_full := by
  intro h
  have := h 1 [.setAll] [.set 0 1] _ _ (by simp [Op.InRange]) (by simp [Op.InRange]) rfl rfl
  revert this; decide

theorem eq_iff_bits (x y : Words) (hl : x.length = y.length) :
    eq x y = true ↔ ∀ n, bit x n = bit y n := by
  rw [eq_iff hl]
  constructor
  · rintro rfl n; rfl
  · intro h
    apply value_inj hl
    apply Nat.eq_of_testBit_eq
    intro n; rw [testBit_value, testBit_value, h]

theorem bit_beyond (x : Words) (n : Nat) (hn : 32 * x.length ≤ n) : bit x n = false := by
  unfold bit
  rw [List.getD_eq_getElem?_getD, List.getElem?_eq_none (by omega)]; simp

/-- **C06 (partial).** If `N` is a positive multiple of the word size, equality is agreement on all
positions, for any contents. -/
theorem C06_whole_words_partial (k : Nat) (hk : 0 < k) (x y : Words)
    (hx : x.length = numWords (32 * k)) (hy : y.length = numWords (32 * k)) :
    eq x y = true ↔ ∀ n < 32 * k, test x n = test y n := by
  have hnw : numWords (32 * k) = k := by unfold numWords; split <;> omega
  rw [hnw] at hx hy
  rw [eq_iff_bits x y (hx.trans hy.symm)]
  constructor
  · intro h n hn
    rw [test_eq, test_eq, if_pos (by omega), if_pos (by omega), h]
  · intro h n
    by_cases hn : n < 32 * k
    · have := h n hn
      rw [test_eq, test_eq, if_pos (by omega), if_pos (by omega)] at this
      simpa using this
    · rw [bit_beyond _ _ (by omega), bit_beyond _ _ (by omega)]

/-- **C06 (partial).** For every `N`, equality is agreement on all positions for bitsets built without
the argument-less `set()`. Missing: histories with `set()` when `N` is not a multiple of 32. -/
theorem C06_no_setAll_partial (N : Nat) (ops₁ ops₂ : List Op) (x y : Words)
    (h₁ : ∀ op ∈ ops₁, op.InRange N ∧ op ≠ .setAll) (h₂ : ∀ op ∈ ops₂, op.InRange N ∧ op ≠ .setAll)
    (hx : run (init N) ops₁ = some x) (hy : run (init N) ops₂ = some y) :
    eq x y = true ↔ ∀ n < N, test x n = test y n := by
  have key : ∀ (ops : List Op) (f : Nat → Bool), (∀ op ∈ ops, op.InRange N ∧ op ≠ .setAll) →
      (∀ n, N ≤ n → f n = false) → ∀ n, N ≤ n → specRun f ops n = false := by
    intro ops
    induction ops with
    | nil => intro f _ hf n hn; exact hf n hn
    | cons op ops ih =>
      intro f hops hf
      apply ih (specStep f op) (fun o ho => hops o (by simp [ho]))
      intro m hm
      have hop := hops op (by simp)
      cases op with
      | set k v =>
        have : m ≠ k := by have := hop.1; simp only [Op.InRange] at this; omega
        simp [specStep, this, hf m hm]
      | reset k => simp [specStep, hf m hm]
      | setAll => simp at hop
      | resetAll => simp [specStep]
  obtain ⟨x', hx1, hx2, hx3⟩ := run_spec N ops₁ (fun o h => (h₁ o h).1) (init N) (fun _ => false)
    (init_length N) (fun n _ => bit_init N n)
  obtain ⟨y', hy1, hy2, hy3⟩ := run_spec N ops₂ (fun o h => (h₂ o h).1) (init N) (fun _ => false)
    (init_length N) (fun n _ => bit_init N n)
  rw [hx] at hx1; rw [hy] at hy1
  cases hx1; cases hy1
  rw [eq_iff_bits x y (hx2.trans hy2.symm)]
  constructor
  · intro h n hn
    have := lt_numWords hn
    rw [test_eq, test_eq, if_pos (by omega), if_pos (by omega), h]
  · intro h n
    by_cases hn : n < N
    · have h1 := h n hn
      have := lt_numWords hn
      rw [test_eq, test_eq, if_pos (by omega), if_pos (by omega)] at h1
      simpa using h1
    · by_cases hs : n / 32 < numWords N
      · rw [hx3 n (by omega), hy3 n (by omega), key ops₁ _ h₁ (by simp) n (by omega),
          key ops₂ _ h₂ (by simp) n (by omega)]
      · rw [bit_beyond _ _ (by omega), bit_beyond _ _ (by omega)]

example : ∃ x y, run (init 70) [.set 3 1, .set 69 1] = some x ∧ run (init 70) [.set 69 1, .resetAll] = some y :=
  ⟨_, _, rfl, rfl⟩

/-! ## C37 – integer conversions -/

/-- **C37.** For `N > 32`, `Bitset<N>(unsigned long)` followed by `to_ulong` gives the integer back. -/
theorem C37_ulong_roundtrip (N : Nat) (hN : 32 < N) (ul : BitVec 64) :
    ∃ ws, ofUlong N ul = some ws ∧ ws.length = numWords N ∧ value ws = ul.toNat ∧ toUlong ws = some ul := by
  have hn : ∃ k, numWords N = k + 2 := ⟨numWords N - 2, by unfold numWords; split <;> omega⟩
  obtain ⟨k, hk⟩ := hn
  have hi : init N = 0 :: 0 :: List.replicate k 0 := by
    unfold init; rw [hk]; rfl
  have hv0 : ∀ k, value (List.replicate k (0 : Word)) = 0 := by
    intro k; induction k with
    | zero => rfl
    | succ k ih => rw [List.replicate_succ, value, ih]; rfl
  have hlt := ul.isLt
  have e1 : (BitVec.setWidth 32 ul).toNat = ul.toNat % 2 ^ 32 := by simp
  have e2 : (BitVec.setWidth 32 (ul >>> 32)).toNat = ul.toNat / 2 ^ 32 := by
    simp [BitVec.toNat_ushiftRight, Nat.shiftRight_eq_div_pow]; omega
  refine ⟨_, by unfold ofUlong; rw [hi], by simp [hk], ?_, ?_⟩
  · simp only [value, hv0, e1, e2]; omega
  · show some _ = some ul
    congr 1
    apply BitVec.eq_of_toNat_eq
    simp only [BitVec.toNat_add, BitVec.toNat_shiftLeft, BitVec.toNat_setWidth, e1, e2]
    simp [Nat.shiftLeft_eq]; omega

/-- For `N ≤ 32` both conversions access memory outside the object. -/
theorem C37_ulong_small (N : Nat) (hN : N ≤ 32) (ul : BitVec 64) (ws : Words)
    (hl : ws.length = numWords N) : ofUlong N ul = none ∧ toUlong ws = none := by
  have hn : numWords N = 1 := by unfold numWords; split <;> omega
  rw [hn] at hl
  constructor
  · unfold ofUlong init; rw [hn]; rfl
  · match ws, hl with
    | [a], _ => rfl

example : (32 : Nat) < 100 := by decide

end Thot.Bitset
