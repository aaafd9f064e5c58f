import Verif.Bitset.Model
namespace Thot.Bitset

theorem numWords_succ (n : Nat) : numWords (n + 1) - 1 = n / 32 := by
  unfold numWords; split <;> omega

/-- Bit `n` of the storage (false beyond it). -/
def bit (ws : Words) (n : Nat) : Bool := (ws.getD (n / 32) 0).getLsbD (n % 32)

theorem sub_div (n : Nat) : n - n / 32 * 32 = n % 32 := by omega

theorem and_one_ne (w : Word) (k : Nat) : (((w >>> k) &&& 1) != 0) = w.getLsbD k := by
  have h1 : ((w >>> k) &&& 1#32).toNat = (w.toNat >>> k) % 2 := by
    simp [BitVec.toNat_and, BitVec.toNat_ushiftRight, Nat.and_one_is_mod]
  have h2 : w.getLsbD k = decide ((w.toNat >>> k) % 2 = 1) := by
    simp [BitVec.getLsbD, Nat.testBit, Nat.and_comm 1, Nat.and_one_is_mod]
  rw [h2]
  rcases Nat.mod_two_eq_zero_or_one (w.toNat >>> k) with h | h
  · have : ((w >>> k) &&& 1#32) = 0#32 := by apply BitVec.eq_of_toNat_eq; rw [h1, h]; rfl
    simp [h, this]
  · have : ((w >>> k) &&& 1#32) ≠ 0#32 := by
      intro hc; rw [hc] at h1; rw [h] at h1; simp at h1
    simp [h, this]

theorem test_eq (ws : Words) (n : Nat) :
    test ws n = if n / 32 < ws.length then some (bit ws n) else none := by
  unfold test bit
  simp only [numWords_succ, sub_div]
  split <;> rename_i h
  · have := and_one_ne ws[n / 32] (n % 32)
    simp only [List.getD_eq_getElem?_getD, List.getElem?_eq_getElem h, Option.getD_some, this]
  · rfl

theorem reset_eq (ws : Words) (n : Nat) :
    reset ws n = if n / 32 < ws.length then
      some (ws.set (n / 32) (ws.getD (n / 32) 0 &&& ~~~ ((1 : Word) <<< (n % 32)))) else none := by
  unfold reset
  simp only [numWords_succ, sub_div]
  split <;> rename_i h
  · simp [List.getD_eq_getElem?_getD, List.getElem?_eq_getElem h]
  · rfl

theorem set_eq (ws : Words) (n : Nat) (v : Int) :
    set ws n v = if v = 0 then reset ws n else if n / 32 < ws.length then
      some (ws.set (n / 32) (ws.getD (n / 32) 0 ||| ((1 : Word) <<< (n % 32)))) else none := by
  unfold set
  simp only [numWords_succ, sub_div]
  split
  · rfl
  split <;> rename_i h
  · simp [List.getD_eq_getElem?_getD, List.getElem?_eq_getElem h]
  · rfl

theorem one_shl_getLsbD (k i : Nat) (hi : i < 32) :
    ((1 : Word) <<< k).getLsbD i = decide (i = k) := by
  have : (1 : Word) = 1#32 := rfl
  rw [this, BitVec.getLsbD_shiftLeft]
  simp [BitVec.getLsbD_one, hi]
  by_cases h : i = k
  · simp [h]
  · by_cases h2 : i < k
    · simp [h, h2]
    · simp [h, h2]; omega

theorem getD_set {α} (l : List α) (i j : Nat) (v d : α) (hi : i < l.length) :
    (l.set i v).getD j d = if j = i then v else l.getD j d := by
  simp only [List.getD_eq_getElem?_getD, List.getElem?_set]
  by_cases h : i = j
  · subst h; simp [hi]
  · simp [h, Ne.symm h]

theorem bit_set (ws : Words) (n m : Nat) (h : n / 32 < ws.length) :
    bit (ws.set (n / 32) (ws.getD (n / 32) 0 ||| ((1 : Word) <<< (n % 32)))) m
      = if m = n then true else bit ws m := by
  unfold bit
  rw [getD_set _ _ _ _ _ h]
  have h32 : m % 32 < 32 := Nat.mod_lt _ (by omega)
  split <;> rename_i h1
  · rw [BitVec.getLsbD_or, one_shl_getLsbD _ _ h32, h1]
    by_cases h2 : m = n
    · simp [h2]
    · have : ¬ m % 32 = n % 32 := by omega
      simp [h2, this]
  · have : m ≠ n := by intro h; subst h; exact h1 rfl
    simp [this]

theorem bit_reset (ws : Words) (n m : Nat) (h : n / 32 < ws.length) :
    bit (ws.set (n / 32) (ws.getD (n / 32) 0 &&& ~~~ ((1 : Word) <<< (n % 32)))) m
      = if m = n then false else bit ws m := by
  unfold bit
  rw [getD_set _ _ _ _ _ h]
  have h32 : m % 32 < 32 := Nat.mod_lt _ (by omega)
  split <;> rename_i h1
  · rw [BitVec.getLsbD_and, BitVec.getLsbD_not, one_shl_getLsbD _ _ h32, h1]
    by_cases h2 : m = n
    · simp [h2]
    · have : ¬ m % 32 = n % 32 := by omega
      simp [h2, this, h32]
  · have : m ≠ n := by intro h; subst h; exact h1 rfl
    simp [this]

theorem bit_setAll (ws : Words) (m : Nat) (h : m / 32 < ws.length) : bit (setAll ws) m = true := by
  unfold bit setAll
  simp only [List.getD_eq_getElem?_getD, List.getElem?_map, List.getElem?_eq_getElem h,
    Option.map_some, Option.getD_some]
  rw [BitVec.getLsbD_allOnes]; simp [Nat.mod_lt]

theorem bit_resetAll (ws : Words) (m : Nat) : bit (resetAll ws) m = false := by
  unfold bit resetAll
  by_cases h : m / 32 < ws.length
  · simp [List.getD_eq_getElem?_getD, List.getElem?_eq_getElem h]
  · simp [List.getD_eq_getElem?_getD, List.getElem?_eq_none (by omega : ws.length ≤ m / 32)]

theorem init_length (N : Nat) : (init N).length = numWords N := by simp [init]

theorem lt_numWords {n N : Nat} (h : n < N) : n / 32 < numWords N := by
  unfold numWords; split <;> omega

theorem bit_init (N m : Nat) : bit (init N) m = false := by
  unfold bit init
  by_cases h : m / 32 < numWords N
  · simp [List.getD_eq_getElem?_getD, List.getElem?_replicate, h]
  · simp [List.getD_eq_getElem?_getD, List.getElem?_replicate, h]

/-! ### integer value -/

/-- The bitset read as an unsigned integer. -/
def value : Words → Nat
  | [] => 0
  | w :: ws => w.toNat + 2 ^ 32 * value ws

theorem value_lt (ws : Words) : value ws < 2 ^ (32 * ws.length) := by
  induction ws with
  | nil => simp [value]
  | cons w ws ih =>
    simp only [value, List.length_cons]
    have hw := w.isLt
    have : 2 ^ (32 * (ws.length + 1)) = 2 ^ 32 * 2 ^ (32 * ws.length) := by
      rw [← Nat.pow_add]; congr 1; omega
    rw [this]
    have : 2 ^ 32 * (value ws + 1) ≤ 2 ^ 32 * 2 ^ (32 * ws.length) := Nat.mul_le_mul_left _ ih
    omega

theorem testBit_value (ws : Words) (n : Nat) : (value ws).testBit n = bit ws n := by
  induction ws generalizing n with
  | nil => simp [value, bit]
  | cons w ws ih =>
    simp only [value]
    rw [Nat.add_comm, Nat.testBit_two_pow_mul_add _ w.isLt]
    by_cases h : n < 32
    · have h0 : n / 32 = 0 := by omega
      have h1 : n % 32 = n := by omega
      simp [h, bit, h0, h1, BitVec.getLsbD]
    · rw [if_neg h, ih]
      have h0 : n / 32 = (n - 32) / 32 + 1 := by omega
      have h1 : n % 32 = (n - 32) % 32 := by omega
      unfold bit
      rw [h0, h1]; simp

theorem value_inj {x y : Words} (hl : x.length = y.length) (h : value x = value y) : x = y := by
  induction x generalizing y with
  | nil => cases y with
    | nil => rfl
    | cons => simp at hl
  | cons a as ih => cases y with
    | nil => simp at hl
    | cons b bs =>
      simp only [value] at h
      have ha := a.isLt
      have hb := b.isLt
      have h1 : a.toNat = b.toNat := by omega
      have h2 : value as = value bs := by omega
      rw [BitVec.eq_of_toNat_eq h1, ih (by simpa using hl) h2]

theorem eq_iff {x y : Words} (hl : x.length = y.length) : eq x y = true ↔ x = y := by
  induction x generalizing y with
  | nil => cases y with
    | nil => simp [eq]
    | cons => simp at hl
  | cons a as ih => cases y with
    | nil => simp at hl
    | cons b bs =>
      simp only [eq]
      by_cases h : a = b
      · subst h; simp [ih (by simpa using hl)]
      · simp [h]

theorem ne_eq_not_eq (x y : Words) : ne x y = !eq x y := by
  induction x generalizing y with
  | nil => simp [ne, eq]
  | cons a as ih => cases y with
    | nil => simp [ne, eq]
    | cons b bs =>
      simp only [ne, eq]
      by_cases h : a = b
      · simp [h, ih]
      · simp [h]

/-- value of a list of words given most significant first -/
def valueMsw (l : List Word) : Nat := l.foldl (fun acc w => acc * 2 ^ 32 + w.toNat) 0

theorem valueMsw_foldl (l : List Word) (acc : Nat) :
    l.foldl (fun acc w => acc * 2 ^ 32 + w.toNat) acc = acc * 2 ^ (32 * l.length) + valueMsw l := by
  induction l generalizing acc with
  | nil => simp [valueMsw]
  | cons w ws ih =>
    simp only [List.foldl_cons, valueMsw, List.length_cons]
    rw [ih, ih (0 * 2 ^ 32 + w.toNat)]
    have : 2 ^ (32 * (ws.length + 1)) = 2 ^ 32 * 2 ^ (32 * ws.length) := by
      rw [← Nat.pow_add]; congr 1; omega
    rw [this, Nat.add_mul, Nat.zero_mul, Nat.zero_add, Nat.mul_assoc, Nat.add_assoc]

theorem valueMsw_cons (w : Word) (ws : List Word) :
    valueMsw (w :: ws) = w.toNat * 2 ^ (32 * ws.length) + valueMsw ws := by
  conv => lhs; unfold valueMsw
  rw [List.foldl_cons, valueMsw_foldl]; simp

theorem valueMsw_append (l : List Word) (w : Word) :
    valueMsw (l ++ [w]) = valueMsw l * 2 ^ 32 + w.toNat := by
  simp [valueMsw, List.foldl_append]

theorem valueMsw_reverse (ws : Words) : valueMsw ws.reverse = value ws := by
  induction ws with
  | nil => rfl
  | cons w ws ih => rw [List.reverse_cons, valueMsw_append, ih]; simp only [value]; omega

theorem valueMsw_lt (l : List Word) : valueMsw l < 2 ^ (32 * l.length) := by
  have := value_lt l.reverse
  rw [← valueMsw_reverse] at this
  simpa using this

theorem ltMsw_iff {x y : List Word} (hl : x.length = y.length) :
    ltMsw x y = true ↔ valueMsw x < valueMsw y := by
  induction x generalizing y with
  | nil => cases y with
    | nil => simp [ltMsw]
    | cons => simp at hl
  | cons a as ih => cases y with
    | nil => simp at hl
    | cons b bs =>
      have hl' : as.length = bs.length := by simpa using hl
      have h1 := valueMsw_lt as
      have h2 := valueMsw_lt bs
      rw [valueMsw_cons, valueMsw_cons, ← hl'] 
      rw [← hl'] at h2
      simp only [ltMsw, BitVec.lt_def]
      generalize 2 ^ (32 * as.length) = P at *
      by_cases hab : a.toNat < b.toNat
      · simp only [hab, if_true, true_iff]
        have : (a.toNat + 1) * P ≤ b.toNat * P := Nat.mul_le_mul_right _ hab
        rw [Nat.add_mul] at this; omega
      · by_cases hba : b.toNat < a.toNat
        · simp only [hab, hba, if_true, if_false]
          have : (b.toNat + 1) * P ≤ a.toNat * P := Nat.mul_le_mul_right _ hba
          rw [Nat.add_mul] at this
          simp; omega
        · have : a.toNat = b.toNat := by omega
          rw [if_neg hab, if_neg hba, ih hl', this]
          omega

theorem gtMsw_eq (x y : List Word) : x.length = y.length → gtMsw x y = ltMsw y x := by
  induction x generalizing y with
  | nil => cases y <;> simp [gtMsw, ltMsw]
  | cons a as ih => cases y with
    | nil => simp
    | cons b bs =>
      intro hl
      have hl' : as.length = bs.length := by simpa using hl
      simp only [gtMsw, ltMsw, ih _ hl', BitVec.lt_def]
      by_cases h1 : a.toNat < b.toNat
      · have : ¬ b.toNat < a.toNat := by omega
        simp [h1, this]
      · by_cases h2 : b.toNat < a.toNat <;> simp [h1, h2]

theorem lt_iff {x y : Words} (hl : x.length = y.length) : lt x y = true ↔ value x < value y := by
  unfold lt
  rw [ltMsw_iff (by simpa using hl), valueMsw_reverse, valueMsw_reverse]

/-! ### increment -/

theorem shl31 : ((1 : Word) <<< 31) = 0x80000000#32 := by decide

theorem and_top (w : Word) : (w &&& 0x80000000#32) = if w.toNat < 2 ^ 31 then 0#32 else 0x80000000#32 := by
  have h : ∀ i (hi : i < 32), (0x80000000#32).getLsbD i = decide (i = 31) := by
    decide
  have hm : w.getLsbD 31 = decide (2 ^ 31 ≤ w.toNat) := by
    rw [← BitVec.msb_eq_getLsbD_last (x := w)] 
    simp [BitVec.msb_eq_decide]
  apply BitVec.eq_of_getLsbD_eq
  intro i hi
  rw [BitVec.getLsbD_and, h i hi]
  split <;> rename_i hw
  · by_cases h31 : i = 31
    · subst h31; rw [hm]; simp; omega
    · simp [h31]
  · rw [h i hi]
    by_cases h31 : i = 31
    · subst h31; rw [hm]; simp; omega
    · simp [h31]

theorem top_cond (w : Word) : (w &&& (1 : Word) <<< 31 = (1 : Word) <<< 31) ↔ 2 ^ 31 ≤ w.toNat := by
  rw [shl31, and_top]; split <;> simp <;> omega

theorem top_cond0 (w : Word) : (w &&& (1 : Word) <<< 31 = 0) ↔ w.toNat < 2 ^ 31 := by
  rw [shl31, and_top]; split <;> simp <;> omega

theorem incr_length (ws : Words) : (incr ws).length = ws.length := by
  induction ws with
  | nil => rfl
  | cons w ws ih => simp only [incr]; split <;> simp [ih]

theorem value_incr (ws : Words) : value (incr ws) = (value ws + 1) % 2 ^ (32 * ws.length) := by
  induction ws with
  | nil => simp [incr, value, Nat.mod_one]
  | cons w ws ih =>
    have hw := w.isLt
    have hv := value_lt ws
    have hP : 2 ^ (32 * (ws.length + 1)) = 2 ^ 32 * 2 ^ (32 * ws.length) := by
      rw [← Nat.pow_add]; congr 1; omega
    have h1 : (w + 1).toNat = (w.toNat + 1) % 2 ^ 32 := by simp [BitVec.toNat_add]
    simp only [incr, top_cond, top_cond0, List.length_cons, hP]
    split <;> rename_i hc
    · simp only [value, h1]
      rw [h1] at hc
      have h2 : w.toNat + 1 < 2 ^ 32 := by omega
      rw [Nat.mod_eq_of_lt h2, Nat.mod_eq_of_lt]
      · omega
      · have : 2 ^ 32 * (value ws + 1) ≤ 2 ^ 32 * 2 ^ (32 * ws.length) := Nat.mul_le_mul_left _ hv
        omega
    · simp only [value, h1, ih]
      rw [h1] at hc
      have h2 : w.toNat + 1 = 2 ^ 32 := by omega
      rw [h2]
      have : w.toNat + 2 ^ 32 * value ws + 1 = 2 ^ 32 * (value ws + 1) := by omega
      rw [this, Nat.mul_mod_mul_left]; simp

/-! ### count -/

theorem one_shl_ne (k : Nat) (hk : k < 32) : ((1 : Word) <<< k) ≠ 0 := by
  intro h
  have := one_shl_getLsbD k k hk
  rw [h] at this; simp at this

theorem and_one_shl (w : Word) (k : Nat) (hk : k < 32) :
    ((w &&& ((1 : Word) <<< k)) ≠ 0) ↔ w.getLsbD k = true := by
  constructor
  · intro h
    apply Classical.byContradiction
    intro hn
    apply h
    apply BitVec.eq_of_getLsbD_eq
    intro i hi
    rw [BitVec.getLsbD_and, one_shl_getLsbD _ _ hi]
    by_cases hik : i = k
    · subst hik; simp at hn; simp [hn]
    · simp [hik]
  · intro h hc
    have h2 : (w &&& ((1 : Word) <<< k)).getLsbD k = true := by
      rw [BitVec.getLsbD_and, one_shl_getLsbD _ _ hk, h]; simp
    rw [hc] at h2; simp at h2

theorem shl_succ (k : Nat) : ((1 : Word) <<< k) <<< 1 = (1 : Word) <<< (k + 1) := by
  rw [← BitVec.shiftLeft_add]

theorem shl32 : ((1 : Word) <<< 32) = 0 := by decide

theorem countLoop_eq (ws : Words) (fuel p c : Nat) (hp : p + fuel ≤ 32 * ws.length) :
    countLoop ws fuel (p / 32) ((1 : Word) <<< (p % 32)) c
      = some (c + (List.range' p fuel).countP (fun n => bit ws n)) := by
  induction fuel generalizing p c with
  | zero => simp [countLoop]
  | succ f ih =>
    have hlt : p / 32 < ws.length := by omega
    have hm : p % 32 < 32 := Nat.mod_lt _ (by omega)
    simp only [countLoop, hlt, dite_true, shl_succ]
    have hb : (ws[p / 32] &&& (1 : Word) <<< (p % 32) ≠ 0) ↔ bit ws p = true := by
      rw [and_one_shl _ _ hm]; unfold bit
      simp [List.getD_eq_getElem?_getD, List.getElem?_eq_getElem hlt]
    have hc : (if ws[p / 32] &&& (1 : Word) <<< (p % 32) ≠ 0 then c + 1 else c)
        = c + (if bit ws p then 1 else 0) := by
      by_cases h : bit ws p = true
      · rw [if_pos (hb.2 h)]; simp [h]
      · have : ¬ (ws[p / 32] &&& (1 : Word) <<< (p % 32) ≠ 0) := fun hh => h (hb.1 hh)
        rw [if_neg this]; simp [h]
    rw [hc, List.range'_succ, List.countP_cons]
    by_cases hlast : p % 32 = 31
    · have e1 : p / 32 + 1 = (p + 1) / 32 := by omega
      have e2 : (1 : Word) = (1 : Word) <<< ((p + 1) % 32) := by
        have : (p + 1) % 32 = 0 := by omega
        rw [this]; decide
      rw [hlast, shl32]
      simp only [if_true]
      conv => lhs; rw [e1, e2]
      rw [ih (p + 1) _ (by omega)]
      congr 1; omega
    · have hne : ((1 : Word) <<< (p % 32 + 1)) ≠ 0 := one_shl_ne _ (by omega)
      have e1 : p / 32 = (p + 1) / 32 := by omega
      have e2 : p % 32 + 1 = (p + 1) % 32 := by omega
      rw [if_neg hne]
      conv => lhs; rw [e1, e2]
      rw [ih (p + 1) _ (by omega)]
      congr 1; omega

/-! ### shift -/

theorem shrMask_getLsbD (k a i : Nat) (w : Word) (ha : ∀ i < 32, w.getLsbD i = decide (i < a))
    (hi : i < 32) : (shrMask k w).getLsbD i = decide (i < a + k) := by
  induction k generalizing w a with
  | zero => simpa [shrMask] using ha i hi
  | succ k ih =>
    simp only [shrMask]
    rw [ih (a + 1)]
    · congr 1; simp; omega
    · intro j hj
      rw [BitVec.getLsbD_or, BitVec.getLsbD_shiftLeft]
      by_cases h0 : j = 0
      · subst h0; simp
      · have : (1 : Word).getLsbD j = false := by
          have h1 : (1 : Word) = 1#32 := rfl
          rw [h1, BitVec.getLsbD_one]; simp [h0]
        rw [this, ha (j - 1) (by omega)]
        have : ¬ j < 1 := by omega
        simp [hj, this]; omega

theorem shrLoop_length (j pos : Nat) (mask : Word) (fuel i : Nat) (ws : Words) :
    (shrLoop j pos mask fuel i ws).length = ws.length := by
  induction fuel generalizing i ws with
  | zero => rfl
  | succ f ih => simp only [shrLoop]; rw [ih]; split <;> simp

/-- the word computed for index `i` from the original contents -/
def shrWord (j pos : Nat) (mask : Word) (ws : Words) (i : Nat) : Word :=
  if pos < 32 ∧ i + j < ws.length then
    let v := (ws.getD (i + j) 0) >>> pos
    if i + j + 1 < ws.length then
      v ||| (((ws.getD (i + j + 1) 0) &&& mask) <<< (32 - pos))
    else v
  else 0

theorem shrLoop_getD (j pos : Nat) (mask : Word) (orig : Words) (fuel i : Nat) (ws : Words)
    (hl : ws.length = orig.length) (hfi : i + fuel = orig.length)
    (hinv : ∀ m, ws.getD m 0 = if m < i then shrWord j pos mask orig m else orig.getD m 0) (m : Nat)
    (hm : m < orig.length) :
    (shrLoop j pos mask fuel i ws).getD m 0 = shrWord j pos mask orig m := by
  induction fuel generalizing i ws with
  | zero => simp only [shrLoop]; rw [hinv, if_pos (by omega)]
  | succ f ih =>
    simp only [shrLoop]
    have hset : ∀ (c : Prop) [Decidable c] (a b : Word),
        (if c then ws.set i a else ws.set i b) = ws.set i (if c then a else b) := by
      intros; split <;> rfl
    have hw : (if pos < 32 ∧ i + j < ws.length then
            if i + j + 1 < ws.length then
              ws.getD (i + j) 0 >>> pos ||| (ws.getD (i + j + 1) 0 &&& mask) <<< (32 - pos)
            else ws.getD (i + j) 0 >>> pos
          else 0) = shrWord j pos mask orig i := by
      have h1 := hinv (i + j)
      have h2 := hinv (i + j + 1)
      rw [if_neg (by omega)] at h1 h2
      unfold shrWord
      rw [hl, h1, h2]
    rw [hset, hw]
    apply ih
    · simpa using hl
    · omega
    · intro m'
      rw [getD_set _ _ _ _ _ (by omega), hinv]
      by_cases h1 : m' = i
      · subst h1; simp
      · have : (m' < i + 1) ↔ m' < i := by omega
        simp [h1, this]

theorem bit_shrAssign (ws : Words) (pos n : Nat) (hn : n < 32 * ws.length) :
    bit (shrAssign ws pos) n = bit ws (n + pos) := by
  have hpos : pos - pos / 32 * 32 = pos % 32 := by omega
  have hp32 : pos % 32 < 32 := Nat.mod_lt _ (by omega)
  have hn32 : n % 32 < 32 := Nat.mod_lt _ (by omega)
  unfold shrAssign
  simp only [numWords_succ, hpos]
  unfold bit
  rw [shrLoop_getD (pos / 32) (pos % 32) _ ws ws.length 0 ws rfl (by omega) (by simp) _ (by omega)]
  unfold shrWord
  have hmask : ∀ i < 32, (shrMask (pos % 32) 0).getLsbD i = decide (i < pos % 32) := by
    intro i hi
    have := shrMask_getLsbD (pos % 32) 0 i 0 (by simp) hi
    simpa using this
  by_cases hin : n / 32 + pos / 32 < ws.length
  · simp only [hp32, hin, and_self, if_true]
    by_cases hcarry : n % 32 + pos % 32 < 32
    · have e1 : (n + pos) / 32 = n / 32 + pos / 32 := by omega
      have e2 : (n + pos) % 32 = n % 32 + pos % 32 := by omega
      rw [e1, e2]
      have base : ((ws.getD (n / 32 + pos / 32) 0) >>> (pos % 32)).getLsbD (n % 32)
          = (ws.getD (n / 32 + pos / 32) 0).getLsbD (n % 32 + pos % 32) := by
        rw [BitVec.getLsbD_ushiftRight, Nat.add_comm (pos % 32)]
      split
      · rw [BitVec.getLsbD_or, base, BitVec.getLsbD_shiftLeft]
        have : n % 32 < 32 - pos % 32 := by omega
        simp [this]
      · exact base
    · have e1 : (n + pos) / 32 = n / 32 + pos / 32 + 1 := by omega
      have e2 : (n + pos) % 32 = n % 32 + pos % 32 - 32 := by omega
      rw [e1, e2]
      have base : ((ws.getD (n / 32 + pos / 32) 0) >>> (pos % 32)).getLsbD (n % 32) = false := by
        rw [BitVec.getLsbD_ushiftRight]
        apply BitVec.getLsbD_of_ge; omega
      split <;> rename_i hlast
      · rw [BitVec.getLsbD_or, base, BitVec.getLsbD_shiftLeft, BitVec.getLsbD_and,
          hmask _ (by omega)]
        have h1 : ¬ n % 32 < 32 - pos % 32 := by omega
        have h2 : n % 32 - (32 - pos % 32) < pos % 32 := by omega
        have h3 : n % 32 - (32 - pos % 32) = n % 32 + pos % 32 - 32 := by omega
        rw [← h3]
        simp [h1, h2, hn32]
      · rw [base]
        simp [List.getD_eq_getElem?_getD, List.getElem?_eq_none (Nat.le_of_not_lt hlast)]
  · have h2 : ws.length ≤ (n + pos) / 32 := by omega
    simp [hin, List.getD_eq_getElem?_getD, List.getElem?_eq_none h2]

/-! ### bitwise operators -/

theorem getD_zipWith (f : Word → Word → Word) (hf : f 0 0 = 0) (x y : Words)
    (hl : x.length = y.length) (i : Nat) :
    (List.zipWith f x y).getD i 0 = f (x.getD i 0) (y.getD i 0) := by
  by_cases h : i < x.length
  · have h' : i < y.length := by omega
    have h2 : i < (List.zipWith f x y).length := by simp; omega
    simp only [List.getD_eq_getElem?_getD, List.getElem?_eq_getElem, h, h', h2, Option.getD_some,
      List.getElem_zipWith]
  · have h1 : x.length ≤ i := by omega
    have h2 : y.length ≤ i := by omega
    have h3 : (List.zipWith f x y).length ≤ i := by simp; omega
    simp [List.getD_eq_getElem?_getD, List.getElem?_eq_none h1, List.getElem?_eq_none h2, hf,
      List.getElem?_eq_none h3]
    exact hf.symm

end Thot.Bitset
