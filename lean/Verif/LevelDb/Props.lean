import Verif.LevelDb.Model
/-! C28: key encoding. C29: phrase table on top of it. -/
namespace Thot.LevelDb
open AMap

/-! ### Words -/

theorem encWord_length : ∀ nb w, (encWord nb w).length = nb
  | 0, _ => rfl
  | nb + 1, w => by rw [encWord, List.length_cons, encWord_length nb w]

theorem encWord_mod : ∀ nb w, encWord nb (w % 254 ^ nb) = encWord nb w := by
  have : ∀ nb k w, nb ≤ k → encWord nb (w % 254 ^ k) = encWord nb w := by
    intro nb
    induction nb with
    | zero => intro k w _; rfl
    | succ nb ih =>
      intro k w h
      rw [encWord, encWord, ih k w (by omega)]
      congr 2
      obtain ⟨d, rfl⟩ : ∃ d, k = nb + 1 + d := ⟨k - (nb + 1), by omega⟩
      rw [show 254 ^ (nb + 1 + d) = 254 ^ nb * 254 ^ (d + 1) by rw [← Nat.pow_add]; congr 1; omega,
        Nat.mod_mul_right_div_self, Nat.mod_mod_of_dvd _ (by rw [Nat.pow_succ]; exact Nat.dvd_mul_left _ _)]
  intro nb w; exact this nb nb w (Nat.le_refl _)

theorem decWord_encWord : ∀ nb w (r : Bytes), w < 254 ^ nb → w < 2 ^ 32 → decWord nb (encWord nb w ++ r) = some (w, r)
  | 0, w, r, h, _ => by
    simp at h; subst h; rfl
  | nb + 1, w, r, h, h32 => by
    rw [encWord, List.cons_append, decWord, ← encWord_mod nb w]
    have hp : 0 < 254 ^ nb := Nat.pow_pos (by omega)
    have hle : w % 254 ^ nb ≤ w := Nat.mod_le _ _
    rw [decWord_encWord nb (w % 254 ^ nb) r (Nat.mod_lt _ hp) (Nat.lt_of_le_of_lt hle h32)]
    have hd : w / 254 ^ nb < 254 := by
      rw [Nat.div_lt_iff_lt_mul hp]; rw [Nat.pow_succ, Nat.mul_comm] at h; exact h
    have he : (1 + w / 254 ^ nb % 254 - 1) * 254 ^ nb + w % 254 ^ nb = w := by
      rw [Nat.mod_eq_of_lt hd, Nat.add_sub_cancel_left, Nat.mul_comm]
      exact Nat.div_add_mod _ _
    simp only [he]
    rw [Nat.mod_eq_of_lt h32]

theorem encWord_bytes : ∀ nb w, ∀ b ∈ encWord nb w, 1 ≤ b ∧ b ≤ 254
  | 0, _, b, h => by cases h
  | nb + 1, w, b, h => by
    rw [encWord] at h
    rcases List.mem_cons.1 h with rfl | h
    · have := Nat.mod_lt (w / 254 ^ nb) (show 254 > 0 by omega)
      omega
    · exact encWord_bytes nb w b h

theorem encWord_lt : ∀ nb w w', w < 254 ^ nb → w' < 254 ^ nb → (encWord nb w < encWord nb w' ↔ w < w')
  | 0, w, w', h, h' => by
    simp at h h'; subst h h'; simp [encWord]
  | nb + 1, w, w', h, h' => by
    have hp : 0 < 254 ^ nb := Nat.pow_pos (by omega)
    have hd : w / 254 ^ nb < 254 := by
      rw [Nat.div_lt_iff_lt_mul hp]; rw [Nat.pow_succ, Nat.mul_comm] at h; exact h
    have hd' : w' / 254 ^ nb < 254 := by
      rw [Nat.div_lt_iff_lt_mul hp]; rw [Nat.pow_succ, Nat.mul_comm] at h'; exact h'
    rw [encWord, encWord, List.cons_lt_cons_iff, ← encWord_mod nb w, ← encWord_mod nb w',
      encWord_lt nb _ _ (Nat.mod_lt _ hp) (Nat.mod_lt _ hp), Nat.mod_eq_of_lt hd, Nat.mod_eq_of_lt hd']
    have e := Nat.div_add_mod w (254 ^ nb)
    have e' := Nat.div_add_mod w' (254 ^ nb)
    have m := Nat.mod_lt w hp
    have m' := Nat.mod_lt w' hp
    generalize 254 ^ nb = B at *
    generalize w / B = q at *
    generalize w' / B = q' at *
    generalize w % B = r at *
    generalize w' % B = r' at *
    constructor
    · rintro (h | ⟨h, h2⟩)
      · have : q < q' := by omega
        have h3 : B * (q + 1) ≤ B * q' := Nat.mul_le_mul_left _ this
        rw [Nat.mul_add] at h3
        omega
      · have : q = q' := by omega
        subst this; omega
    · intro h
      rcases Nat.lt_trichotomy q q' with hq | hq | hq
      · left; omega
      · subst hq; right; exact ⟨rfl, by omega⟩
      · have h3 : B * (q' + 1) ≤ B * q := Nat.mul_le_mul_left _ hq
        rw [Nat.mul_add] at h3
        omega

theorem encWord_inj {nb w w' : Nat} (h : w < 254 ^ nb) (h' : w' < 254 ^ nb) (he : encWord nb w = encWord nb w') : w = w' := by
  rcases Nat.lt_trichotomy w w' with hq | hq | hq
  · have := (encWord_lt nb w w' h h').2 hq; rw [he] at this; exact absurd this (List.lt_irrefl _)
  · exact hq
  · have := (encWord_lt nb w' w h' h).2 hq; rw [he] at this; exact absurd this (List.lt_irrefl _)

theorem append_lt_append : ∀ (a b x y : List Nat), a.length = b.length → (a ++ x < b ++ y ↔ a < b ∨ a = b ∧ x < y)
  | [], [], x, y, _ => by simp
  | a :: as, b :: bs, x, y, h => by
    simp only [List.cons_append, List.cons_lt_cons_iff, List.cons.injEq]
    rw [append_lt_append as bs x y (by simpa using h)]
    constructor
    · rintro (h | ⟨h, h2 | ⟨h2, h3⟩⟩)
      · exact .inl (.inl h)
      · exact .inl (.inr ⟨h, h2⟩)
      · exact .inr ⟨⟨h, h2⟩, h3⟩
    · rintro ((h | ⟨h, h2⟩) | ⟨⟨h, h2⟩, h3⟩)
      · exact .inl h
      · exact .inr ⟨h, .inl h2⟩
      · exact .inr ⟨h, .inr ⟨h2, h3⟩⟩

/-! ### C28 -/

/-- Sequences whose words can be represented with `nb` bytes (and are `unsigned int`s). -/
def Fits (nb : Nat) (v : Phrase) : Prop := ∀ w ∈ v, w < 254 ^ nb ∧ w < 2 ^ 32

theorem fits_cons {nb w : Nat} {v : Phrase} : Fits nb (w :: v) ↔ (w < 254 ^ nb ∧ w < 2 ^ 32) ∧ Fits nb v := by
  simp [Fits]

theorem key_cons (nb w : Nat) (v : Phrase) : vectorToString nb (w :: v) = encWord nb w ++ vectorToString nb v := by
  simp [vectorToString]

theorem decLoop_key (nb : Nat) (hnb : 0 < nb) : ∀ (v : Phrase) (fuel : Nat), Fits nb v → v.length ≤ fuel →
    decLoop nb fuel (vectorToString nb v) = some v
  | [], fuel, _, _ => by simp [vectorToString, decLoop]
  | w :: v, 0, _, h => by simp at h
  | w :: v, fuel + 1, hf, h => by
    rw [fits_cons] at hf
    rw [key_cons]
    have hne : encWord nb w ++ vectorToString nb v ≠ [] := by
      intro hc
      have := congrArg List.length hc
      rw [List.length_append, encWord_length] at this
      simp at this; omega
    cases hs : encWord nb w ++ vectorToString nb v with
    | nil => exact absurd hs hne
    | cons b s =>
      rw [decLoop, ← hs, decWord_encWord nb w _ hf.1.1 hf.1.2]
      simp only []
      rw [decLoop_key nb hnb v fuel hf.2 (by simpa using h)]
      rfl

theorem key_length (nb : Nat) (v : Phrase) : (vectorToString nb v).length = nb * v.length := by
  induction v with
  | nil => simp [vectorToString]
  | cons w v ih => rw [key_cons, List.length_append, encWord_length, ih, List.length_cons, Nat.mul_add]; omega

/-- **C28 (decoding).** For every sequence of representable word indices (below 254^nb; `nb` is 3 for phrases and
n-grams, 5 for lexical tables) the key decodes to the sequence. -/
theorem C28_decode (nb : Nat) (hnb : 0 < nb) (v : Phrase) (hf : Fits nb v) :
    stringToVector nb (vectorToString nb v) = some v := by
  unfold stringToVector
  apply decLoop_key nb hnb v _ hf
  rw [key_length]
  exact Nat.le_mul_of_pos_left _ hnb

/-- **C28 (injectivity).** -/
theorem C28_injective (nb : Nat) (hnb : 0 < nb) (v v' : Phrase) (hf : Fits nb v) (hf' : Fits nb v')
    (he : vectorToString nb v = vectorToString nb v') : v = v' := by
  have h := C28_decode nb hnb v hf
  rw [he, C28_decode nb hnb v' hf'] at h
  injection h with h; exact h.symm

/-- **C28 (bytes).** No byte of a key is 0 or 255, for any sequence whatsoever; the length is `nb` bytes per word. -/
theorem C28_bytes (nb : Nat) (v : Phrase) :
    (∀ b ∈ vectorToString nb v, 1 ≤ b ∧ b ≤ 254) ∧ (vectorToString nb v).length = nb * v.length := by
  refine ⟨?_, key_length nb v⟩
  intro b hb
  simp only [vectorToString, List.mem_flatMap] at hb
  obtain ⟨w, _, hb⟩ := hb
  exact encWord_bytes nb w b hb

/-- **C28 (order).** Bytewise order of keys is the lexicographic order of the index sequences. -/
theorem C28_order (nb : Nat) (hnb : 0 < nb) : ∀ (v v' : Phrase), Fits nb v → Fits nb v' →
    (vectorToString nb v < vectorToString nb v' ↔ v < v')
  | [], [], _, _ => by simp [vectorToString]
  | [], w' :: v', _, _ => by
    rw [key_cons]
    have hne : encWord nb w' ++ vectorToString nb v' ≠ [] := by
      intro hc
      have := congrArg List.length hc
      rw [List.length_append, encWord_length] at this
      simp at this; omega
    cases hs : encWord nb w' ++ vectorToString nb v' with
    | nil => exact absurd hs hne
    | cons b s => simp [vectorToString]
  | w :: v, [], _, _ => by simp [vectorToString]
  | w :: v, w' :: v', hf, hf' => by
    rw [fits_cons] at hf hf'
    rw [key_cons, key_cons, append_lt_append _ _ _ _ (by rw [encWord_length, encWord_length]),
      encWord_lt nb w w' hf.1.1 hf'.1.1, C28_order nb hnb v v' hf.2 hf'.2, List.cons_lt_cons_iff]
    constructor
    · rintro (h | ⟨h, h2⟩)
      · exact .inl h
      · exact .inr ⟨encWord_inj hf.1.1 hf'.1.1 h, h2⟩
    · rintro (h | ⟨rfl, h2⟩)
      · exact .inl h
      · exact .inr ⟨rfl, h2⟩

/-- The bound is needed: word 254^3 gets the key of word 0. With five bytes every `unsigned int` is representable. -/
theorem C28_bound : vectorToString 3 [254 ^ 3] = vectorToString 3 [0] ∧ ∀ v : Phrase, (∀ w ∈ v, w < 2 ^ 32) → Fits 5 v := by
  refine ⟨by decide +kernel, ?_⟩
  intro v h w hw
  have := h w hw
  omega

/-- **C28 (n-gram keys).** Keys of the n-gram database decode, and the first byte is the length plus one for n-grams of
up to 254 words. -/
theorem C28_ngram (v : Phrase) (hf : Fits 3 v) :
    stringToNgram (ngramToString v) = some v ∧ (v.length ≤ 254 → (ngramToString v).head? = some (v.length + 1)) := by
  refine ⟨?_, ?_⟩
  · simp only [stringToNgram, ngramToString, List.tail_cons]
    exact C28_decode 3 (by omega) v hf
  · intro h
    simp only [ngramToString, List.head?_cons, Option.some.injEq]
    omega

example : Fits 3 [0, 5, 254 ^ 3 - 1] := by
  intro w hw
  simp only [List.mem_cons, List.not_mem_nil, or_false] at hw
  rcases hw with rfl | rfl | rfl <;> decide +kernel

/-! ### C29 -/

/-- Phrases that may be stored: words are representable and none is the reserved separator. -/
def Ok (v : Phrase) : Prop := Fits 3 v ∧ unusedWord ∉ v

theorem fits_src {s : Phrase} (h : Ok s) : Fits 3 (encodeSrc s) := by
  rw [encodeSrc, fits_cons]; exact ⟨by decide, h.1⟩
theorem fits_append {u v : Phrase} : Fits 3 (u ++ v) ↔ Fits 3 u ∧ Fits 3 v := by
  simp only [Fits, List.mem_append]
  constructor
  · intro h; exact ⟨fun w hw => h w (.inl hw), fun w hw => h w (.inr hw)⟩
  · rintro ⟨h1, h2⟩ w (hw | hw)
    · exact h1 w hw
    · exact h2 w hw
theorem fits_trgSrc {s t : Phrase} (hs : Ok s) (ht : Ok t) : Fits 3 (encodeTrgSrc s t) := by
  rw [encodeTrgSrc, fits_append, fits_cons]; exact ⟨ht.1, by decide, hs.1⟩

theorem key_inj {u v : Phrase} (hu : Fits 3 u) (hv : Fits 3 v) : key u = key v ↔ u = v :=
  ⟨C28_injective 3 (by omega) u v hu hv, fun h => by rw [h]⟩

theorem sep_split {t t' s s' : Phrase} (h : unusedWord ∉ t) (h' : unusedWord ∉ t')
    (he : t ++ unusedWord :: s = t' ++ unusedWord :: s') : t = t' ∧ s = s' := by
  induction t generalizing t' with
  | nil =>
    cases t' with
    | nil => simpa using he
    | cons a t' =>
      simp only [List.nil_append, List.cons_append, List.cons.injEq] at he
      exact absurd (List.mem_cons.2 (.inl he.1)) h'
  | cons b t ih =>
    cases t' with
    | nil =>
      simp only [List.nil_append, List.cons_append, List.cons.injEq] at he
      exact absurd (List.mem_cons.2 (.inl he.1.symm)) h
    | cons a t' =>
      simp only [List.cons_append, List.cons.injEq] at he
      obtain ⟨h1, h2⟩ := ih (fun hc => h (List.mem_cons_of_mem _ hc)) (fun hc => h' (List.mem_cons_of_mem _ hc)) he.2
      exact ⟨by rw [he.1, h1], h2⟩

theorem enc_disjoint {s s' t t' : Phrase} (ht : Ok t) (ht' : Ok t') (hne' : t' ≠ []) :
    (t ≠ encodeSrc s) ∧ (t ≠ encodeTrgSrc s t') ∧ (encodeSrc s ≠ encodeTrgSrc s' t') := by
  refine ⟨?_, ?_, ?_⟩
  · intro h; apply ht.2; rw [h]; simp [encodeSrc]
  · intro h; apply ht.2; rw [h]; simp [encodeTrgSrc]
  · intro h
    cases t' with
    | nil => exact hne' rfl
    | cons a t' =>
      simp only [encodeSrc, encodeTrgSrc, List.cons_append, List.cons.injEq] at h
      exact ht'.2 (List.mem_cons.2 (.inl h.1))

theorem round_int (n : Int) : roundHalfAway (n : Rat) = n := by
  have h1 : ∀ k : Int, ((k : Rat) + 1/2).floor = k := by
    intro k
    have a : k ≤ ((k : Rat) + 1/2).floor := Rat.le_floor_iff.2 (by grind)
    have b : ((k : Rat) + 1/2).floor < k + 1 := Rat.floor_lt_iff.2 (by push_cast; grind)
    omega
  unfold roundHalfAway
  split
  · rw [show -(n : Rat) = ((-n : Int) : Rat) by push_cast; rfl, h1]; omega
  · exact h1 n

/-- Integer counts are negligible only when zero. -/
theorem rabs_int (n : Int) : rabs (n : Rat) < eps ↔ n = 0 := by
  have he : eps < 1 := by decide +kernel
  have he0 : 0 < eps := by decide +kernel
  unfold rabs
  constructor
  · intro h
    split at h
    · have h1 : ((-n : Int) : Rat) < ((1 : Int) : Rat) := by push_cast; grind
      have h2 : (n : Rat) < ((0 : Int) : Rat) := by push_cast; assumption
      rw [Rat.intCast_lt_intCast] at h1 h2
      omega
    · next hn =>
      have h1 : (n : Rat) < ((1 : Int) : Rat) := by push_cast; grind
      have h2 : ¬ (n : Rat) < ((0 : Int) : Rat) := by push_cast; assumption
      rw [Rat.intCast_lt_intCast] at h1 h2
      omega
  · rintro rfl
    decide +kernel

/-- The histories considered: all phrases are `Ok` and target phrases are not empty. -/
def OpOk : Op → Prop
  | .add s t _ _ => Ok s ∧ Ok t ∧ t ≠ []
  | .addSrc s _ => Ok s
  | .addSrcTrg s t _ => Ok s ∧ Ok t ∧ t ≠ []
  | .incr s t _ => Ok s ∧ Ok t ∧ t ≠ []

/-- What look-ups see after a store. -/
theorem getInfo_store (db : Db) (u v : Phrase) (c : Int) (hu : Fits 3 u) (hv : Fits 3 v) :
    getInfo (storeData db u c) v = if v = u then ((c : Rat), true) else getInfo db v := by
  unfold getInfo storeData
  simp only [lk_put, key_inj hv hu]
  split <;> rfl

theorem cSrc_store_src (db : Db) (s s' : Phrase) (c : Int) (hs : Ok s) (hs' : Ok s') :
    cSrc (storeData db (encodeSrc s) c) s' = if s' = s then (c : Rat) else cSrc db s' := by
  unfold cSrc
  rw [getInfo_store _ _ _ _ (fits_src hs) (fits_src hs')]
  by_cases h : s' = s
  · subst h; simp
  · have : ¬ encodeSrc s' = encodeSrc s := by simpa [encodeSrc] using h
    simp [h, this]
theorem cTrg_store_src (db : Db) (s t : Phrase) (c : Int) (hs : Ok s) (ht : Ok t) (hn : t ≠ []) :
    cTrg (storeData db (encodeSrc s) c) t = cTrg db t := by
  unfold cTrg
  rw [getInfo_store _ _ _ _ (fits_src hs) ht.1, if_neg (enc_disjoint (s' := []) ht ht hn).1]
theorem cST_store_src (db : Db) (s s' t : Phrase) (c : Int) (hs : Ok s) (hs' : Ok s') (ht : Ok t) (hn : t ≠ []) :
    cSrcTrg (storeData db (encodeSrc s) c) s' t = cSrcTrg db s' t := by
  unfold cSrcTrg
  rw [getInfo_store _ _ _ _ (fits_src hs) (fits_trgSrc hs' ht), if_neg (enc_disjoint ht ht hn).2.2.symm]
theorem cSrc_store_trg (db : Db) (s t : Phrase) (c : Int) (hs : Ok s) (ht : Ok t) (hn : t ≠ []) :
    cSrc (storeData db t c) s = cSrc db s := by
  unfold cSrc
  rw [getInfo_store _ _ _ _ ht.1 (fits_src hs), if_neg (enc_disjoint (s' := []) ht ht hn).1.symm]
theorem cTrg_store_trg (db : Db) (t t' : Phrase) (c : Int) (ht : Ok t) (ht' : Ok t') :
    cTrg (storeData db t c) t' = if t' = t then (c : Rat) else cTrg db t' := by
  unfold cTrg
  rw [getInfo_store _ _ _ _ ht.1 ht'.1]
  split <;> rfl
theorem cST_store_trg (db : Db) (s t t' : Phrase) (c : Int) (hs : Ok s) (ht : Ok t) (ht' : Ok t') (hn' : t' ≠ []) :
    cSrcTrg (storeData db t c) s t' = cSrcTrg db s t' := by
  unfold cSrcTrg
  rw [getInfo_store _ _ _ _ ht.1 (fits_trgSrc hs ht'), if_neg (enc_disjoint (s' := []) ht ht' hn').2.1.symm]
theorem cSrc_store_st (db : Db) (s s' t : Phrase) (c : Int) (hs : Ok s) (hs' : Ok s') (ht : Ok t) (hn : t ≠ []) :
    cSrc (storeData db (encodeTrgSrc s t) c) s' = cSrc db s' := by
  unfold cSrc
  rw [getInfo_store _ _ _ _ (fits_trgSrc hs ht) (fits_src hs'), if_neg (enc_disjoint ht ht hn).2.2]
theorem cTrg_store_st (db : Db) (s t t' : Phrase) (c : Int) (hs : Ok s) (ht : Ok t) (ht' : Ok t') (hn : t ≠ []) :
    cTrg (storeData db (encodeTrgSrc s t) c) t' = cTrg db t' := by
  unfold cTrg
  rw [getInfo_store _ _ _ _ (fits_trgSrc hs ht) ht'.1, if_neg (enc_disjoint (s' := []) ht' ht hn).2.1]
theorem cST_store_st (db : Db) (s s' t t' : Phrase) (c : Int) (hs : Ok s) (hs' : Ok s') (ht : Ok t) (ht' : Ok t') :
    cSrcTrg (storeData db (encodeTrgSrc s t) c) s' t' = if s' = s ∧ t' = t then (c : Rat) else cSrcTrg db s' t' := by
  unfold cSrcTrg
  rw [getInfo_store _ _ _ _ (fits_trgSrc hs ht) (fits_trgSrc hs' ht')]
  by_cases h : s' = s ∧ t' = t
  · obtain ⟨rfl, rfl⟩ := h; simp
  · have : ¬ encodeTrgSrc s' t' = encodeTrgSrc s t := by
      intro hc
      have := sep_split ht'.2 ht.2 hc
      exact h ⟨this.2, this.1⟩
    simp [h, this]

/-- **C29 (counts).** The three kinds of counts live in one key space without interfering: on any database, each
modifying call changes exactly the counts it names (rounded to integers), for all phrases without the separator. -/
theorem C29_counts (db : Db) (s t s' t' : Phrase) (hs : Ok s) (ht : Ok t) (hn : t ≠ []) (hs' : Ok s') (ht' : Ok t')
    (hn' : t' ≠ []) (cs cst c : Rat) :
    (cSrc (addTableEntry db s t cs cst) s' = if s' = s then (roundHalfAway cs : Rat) else cSrc db s') ∧
    (cTrg (addTableEntry db s t cs cst) t' = if t' = t then (roundHalfAway cst : Rat) else cTrg db t') ∧
    (cSrcTrg (addTableEntry db s t cs cst) s' t' =
      if s' = s ∧ t' = t then (roundHalfAway cst : Rat) else cSrcTrg db s' t') ∧
    (cSrc (incrCountsOfEntry db s t c) s' = if s' = s then (roundHalfAway (cSrc db s + c) : Rat) else cSrc db s') ∧
    (cTrg (incrCountsOfEntry db s t c) t' = if t' = t then (roundHalfAway (cTrg db t + c) : Rat) else cTrg db t') ∧
    (cSrcTrg (incrCountsOfEntry db s t c) s' t' =
      if s' = s ∧ t' = t then (roundHalfAway (cSrcTrg db s t + c) : Rat) else cSrcTrg db s' t') ∧
    (cSrc (addSrcInfo db s cs) s' = if s' = s then (roundHalfAway cs : Rat) else cSrc db s') ∧
    cTrg (addSrcInfo db s cs) t' = cTrg db t' ∧ cSrcTrg (addSrcInfo db s cs) s' t' = cSrcTrg db s' t' ∧
    cSrc (addSrcTrgInfo db s t cst) s' = cSrc db s' ∧ cTrg (addSrcTrgInfo db s t cst) t' = cTrg db t' ∧
    (cSrcTrg (addSrcTrgInfo db s t cst) s' t' =
      if s' = s ∧ t' = t then (roundHalfAway cst : Rat) else cSrcTrg db s' t') := by
  refine ⟨?_, ?_, ?_, ?_, ?_, ?_, ?_, ?_, ?_, ?_, ?_, ?_⟩ <;>
    simp only [addTableEntry, incrCountsOfEntry, addSrcInfo, addSrcTrgInfo, round_int,
      cSrc_store_st _ s s' t _ hs hs' ht hn, cSrc_store_trg _ s' t _ hs' ht hn, cSrc_store_src _ s s' _ hs hs',
      cTrg_store_st _ s t t' _ hs ht ht' hn, cTrg_store_trg _ t t' _ ht ht', cTrg_store_src _ s t' _ hs ht' hn',
      cST_store_st _ s s' t t' _ hs hs' ht ht', cST_store_trg _ s' t t' _ hs' ht ht' hn',
      cST_store_src _ s s' t' _ hs hs' ht' hn']

/-! The range scan. -/

theorem range_iff : ∀ (t v : Phrase), (¬ v < t ++ [2] ∧ v < t ++ [3]) ↔ ∃ r, v = t ++ 2 :: r
  | [], [] => by simp
  | [], a :: v => by
    simp only [List.nil_append, List.cons_lt_cons_iff, List.cons.injEq]
    constructor
    · rintro ⟨h1, h2⟩
      have h3 : ¬ v < [] := by simp
      have h4 : ¬ a < 2 := fun hc => h1 (.inl hc)
      have h5 : a < 3 := by
        rcases h2 with h2 | ⟨_, h2⟩
        · exact h2
        · exact absurd h2 h3
      exact ⟨v, by clear h1 h2; omega, rfl⟩
    · rintro ⟨r, rfl, rfl⟩
      refine ⟨?_, .inl (by omega)⟩
      rintro (h | ⟨_, h⟩)
      · omega
      · simp at h
  | b :: t, [] => by simp
  | b :: t, a :: v => by
    have ih := range_iff t v
    simp only [List.cons_append, List.cons_lt_cons_iff, List.cons.injEq]
    constructor
    · rintro ⟨h1, h2⟩
      rcases h2 with h2 | ⟨rfl, h2⟩
      · exact absurd (.inl h2) h1
      · obtain ⟨r, hr⟩ := ih.1 ⟨fun hc => h1 (.inr ⟨rfl, hc⟩), h2⟩
        exact ⟨r, rfl, hr⟩
    · rintro ⟨r, rfl, hr⟩
      obtain ⟨h1, h2⟩ := ih.2 ⟨r, hr⟩
      refine ⟨?_, .inr ⟨rfl, h2⟩⟩
      rintro (h | ⟨_, h⟩)
      · omega
      · exact h1 h

/-- Databases reachable by valid calls: distinct keys, each the key of a source, target or pair of valid phrases. -/
structure Inv (db : Db) : Prop where
  distinct : Distinct db
  keys : ∀ e ∈ db, ∃ v, Fits 3 v ∧ e.1 = key v ∧
    ((∃ s, Ok s ∧ v = encodeSrc s) ∨ (Ok v ∧ v ≠ []) ∨ ∃ s t, Ok s ∧ Ok t ∧ t ≠ [] ∧ v = encodeTrgSrc s t)

theorem inv_store {db : Db} (h : Inv db) {v : Phrase} (c : Int) (hv : Fits 3 v)
    (hk : (∃ s, Ok s ∧ v = encodeSrc s) ∨ (Ok v ∧ v ≠ []) ∨ ∃ s t, Ok s ∧ Ok t ∧ t ≠ [] ∧ v = encodeTrgSrc s t) :
    Inv (storeData db v c) := by
  have hd := distinct_put h.distinct (key v) c
  refine ⟨hd, ?_⟩
  intro e he
  have := (lk_some_iff hd).2 (show (e.1, e.2) ∈ put db (key v) c from he)
  rw [lk_put] at this
  split at this
  · next h1 => exact ⟨v, hv, h1, hk⟩
  · exact h.keys _ ((lk_some_iff h.distinct).1 this)

theorem inv_step {db : Db} (h : Inv db) (o : Op) (ho : OpOk o) : Inv (step db o) := by
  cases o with
  | add s t cs cst =>
    obtain ⟨hs, ht, hn⟩ := ho
    exact inv_store (inv_store (inv_store h _ (fits_src hs) (.inl ⟨s, hs, rfl⟩)) _ ht.1 (.inr (.inl ⟨ht, hn⟩))) _
      (fits_trgSrc hs ht) (.inr (.inr ⟨s, t, hs, ht, hn, rfl⟩))
  | addSrc s c => exact inv_store h _ (fits_src ho) (.inl ⟨s, ho, rfl⟩)
  | addSrcTrg s t c =>
    obtain ⟨hs, ht, hn⟩ := ho
    exact inv_store h _ (fits_trgSrc hs ht) (.inr (.inr ⟨s, t, hs, ht, hn, rfl⟩))
  | incr s t c =>
    obtain ⟨hs, ht, hn⟩ := ho
    exact inv_store (inv_store (inv_store h _ (fits_src hs) (.inl ⟨s, hs, rfl⟩)) _ ht.1 (.inr (.inl ⟨ht, hn⟩))) _
      (fits_trgSrc hs ht) (.inr (.inr ⟨s, t, hs, ht, hn, rfl⟩))

theorem inv_run (os : List Op) (ho : ∀ o ∈ os, OpOk o) : Inv (run os) := by
  have : ∀ (os : List Op) (db : Db), Inv db → (∀ o ∈ os, OpOk o) → Inv (os.foldl step db) := by
    intro os
    induction os with
    | nil => intro db h _; exact h
    | cons o os ih =>
      intro db h ho
      exact ih _ (inv_step h o (ho o (List.mem_cons_self ..))) (fun o' h' => ho o' (List.mem_cons_of_mem _ h'))
  exact this os [] ⟨distinct_nil, (by intro e he; cases he)⟩ ho

theorem mapOpt_some {α β : Type} (f : α → Option β) (g : α → β) (l : List α) (h : ∀ a ∈ l, f a = some (g a)) :
    mapOpt f l = some (l.map g) := by
  induction l with
  | nil => rfl
  | cons a l ih =>
    rw [mapOpt, h a (List.mem_cons_self ..)]
    simp only []
    rw [ih (fun b hb => h b (List.mem_cons_of_mem _ hb))]
    rfl

/-- The keys of a database visited for a target phrase are those of its pairs. -/
theorem scan_keys {db : Db} (h : Inv db) {t : Phrase} (ht : Ok t) (hn : t ≠ []) (e : Bytes × Int) (he : e ∈ db) :
    (!decide (e.1 < key (t ++ [unusedWord])) && decide (e.1 < key (t ++ [3]))) = true ↔
      ∃ s, Ok s ∧ e.1 = key (encodeTrgSrc s t) := by
  obtain ⟨v, hv, hk, hform⟩ := h.keys e he
  have h2 : Fits 3 (t ++ [unusedWord]) := by rw [fits_append, fits_cons]; exact ⟨ht.1, by decide, by intro w hw; cases hw⟩
  have h3 : Fits 3 (t ++ [3]) := by rw [fits_append, fits_cons]; exact ⟨ht.1, by decide, by intro w hw; cases hw⟩
  have : (!decide (e.1 < key (t ++ [unusedWord])) && decide (e.1 < key (t ++ [3]))) = true ↔
      (¬ v < t ++ [2] ∧ v < t ++ [3]) := by
    rw [hk]
    simp only [Bool.and_eq_true, Bool.not_eq_true', decide_eq_false_iff_not, decide_eq_true_eq]
    rw [C28_order 3 (by omega) v _ hv h2, C28_order 3 (by omega) v _ hv h3]
  rw [this, range_iff]
  constructor
  · rintro ⟨r, hr⟩
    rcases hform with ⟨s, hs, hvs⟩ | ⟨hvo, _⟩ | ⟨s, t', hs, ht', hn', hvs⟩
    · exfalso
      exact (enc_disjoint (t := t) ht ht hn).2.2 (hvs.symm.trans hr)
    · exfalso
      apply hvo.2; rw [hr]; simp
    · have := sep_split ht'.2 ht.2 (hvs.symm.trans hr)
      refine ⟨s, hs, ?_⟩
      rw [hk, hvs, this.1]
  · rintro ⟨s, hs, hks⟩
    rw [hk, key_inj hv (fits_trgSrc hs ht)] at hks
    exact ⟨s, hks⟩

theorem scan_one {db : Db} {s t : Phrase} (hs : Ok s) (ht : Ok t) :
    scanKey db t (key (encodeTrgSrc s t)) = some (if !(infSrcTrg db s t).2 || rabs (infSrcTrg db s t).1.1 < eps ||
      rabs (infSrcTrg db s t).1.2 < eps then none else some (s, (infSrcTrg db s t).1)) := by
  unfold scanKey
  rw [C28_decode 3 (by omega) _ (fits_trgSrc hs ht)]
  have hl : ¬ (encodeTrgSrc s t).length < t.length + 1 := by
    simp [encodeTrgSrc]
  have hd : (encodeTrgSrc s t).drop (t.length + 1) = s := by
    rw [encodeTrgSrc, show t ++ unusedWord :: s = (t ++ [unusedWord]) ++ s by simp]
    rw [List.drop_append_of_le_length (by simp)]
    simp
  simp only [hl, if_false, hd]

/-- A pair with both counts nonzero is found, with its counts. -/
theorem inf_nonzero {db : Db} {s t : Phrase} :
    (!(infSrcTrg db s t).2 || rabs (infSrcTrg db s t).1.1 < eps || rabs (infSrcTrg db s t).1.2 < eps) = false ↔
      cSrc db s ≠ 0 ∧ cSrcTrg db s t ≠ 0 := by
  have cast : ∀ n : Int, (n : Rat) ≠ 0 ↔ n ≠ 0 := by
    intro n
    rw [show (0 : Rat) = ((0 : Int) : Rat) from rfl, ne_eq, Rat.intCast_inj]
  unfold infSrcTrg cSrc cSrcTrg getInfo
  simp only []
  cases h1 : lk db (key (encodeSrc s)) with
  | none => simp
  | some a =>
    cases h2 : lk db (key (encodeTrgSrc s t)) with
    | none => simp
    | some b =>
      simp only [Option.isSome_some, if_true, Option.getD_some, Bool.not_true, Bool.false_or, Bool.or_eq_false_iff,
        decide_eq_false_iff_not, rabs_int, cast]

theorem inf_val {db : Db} {s t : Phrase} (h : (infSrcTrg db s t).2 = true) :
    (infSrcTrg db s t).1 = (cSrc db s, cSrcTrg db s t) := by
  unfold infSrcTrg cSrc cSrcTrg at *
  simp only [] at *
  split at h
  · next h' => simp [h']
  · cases h

/-- **C29.** For every history of valid calls and every valid target phrase, the entries returned are exactly the source
phrases `s` for which `c(s)` and `c(s,t)` are both nonzero, each once and with these counts: no pair of another target
phrase, no source or target record, and nothing is missed. The returned flag says whether a pair with this target is
stored at all. -/
theorem C29 (os : List Op) (ho : ∀ o ∈ os, OpOk o) (t : Phrase) (ht : Ok t) (hn : t ≠ []) :
    ∃ es b, getEntriesForTarget (run os) t = some (es, b) ∧
      (∀ s x y, (s, (x, y)) ∈ es ↔
        Ok s ∧ x = cSrc (run os) s ∧ y = cSrcTrg (run os) s t ∧ x ≠ 0 ∧ y ≠ 0) ∧
      (es.map Prod.fst).Nodup ∧
      (b = true ↔ ∃ s, Ok s ∧ (lk (run os) (key (encodeTrgSrc s t))).isSome) := by
  have hi := inv_run os ho
  generalize run os = db at *
  -- the source phrase of a visited key
  let src : Bytes → Phrase := fun k => ((stringToVector 3 k).getD []).drop (t.length + 1)
  let ent : Bytes → Option (Phrase × (Rat × Rat)) := fun k =>
    if !(infSrcTrg db (src k) t).2 || rabs (infSrcTrg db (src k) t).1.1 < eps ||
      rabs (infSrcTrg db (src k) t).1.2 < eps then none else some (src k, (infSrcTrg db (src k) t).1)
  let ks := (db.map Prod.fst).filter (fun k => !decide (k < key (t ++ [unusedWord])) && decide (k < key (t ++ [3])))
  have hsrc : ∀ s, Ok s → src (key (encodeTrgSrc s t)) = s := by
    intro s hs
    show ((stringToVector 3 (key (encodeTrgSrc s t))).getD []).drop (t.length + 1) = s
    rw [C28_decode 3 (by omega) _ (fits_trgSrc hs ht)]
    rw [Option.getD_some, encodeTrgSrc, show t ++ unusedWord :: s = (t ++ [unusedWord]) ++ s by simp]
    rw [List.drop_append_of_le_length (by simp)]
    simp
  have hks : ∀ k, k ∈ ks ↔ k ∈ db.map Prod.fst ∧ ∃ s, Ok s ∧ k = key (encodeTrgSrc s t) := by
    intro k
    simp only [ks, List.mem_filter]
    constructor
    · rintro ⟨h1, h2⟩
      obtain ⟨e, he, rfl⟩ := List.mem_map.1 h1
      exact ⟨h1, (scan_keys hi ht hn e he).1 h2⟩
    · rintro ⟨h1, h2⟩
      obtain ⟨e, he, rfl⟩ := List.mem_map.1 h1
      exact ⟨h1, (scan_keys hi ht hn e he).2 h2⟩
  have hscan : ∀ k ∈ ks, scanKey db t k = some (ent k) := by
    intro k hk
    obtain ⟨_, s, hs, rfl⟩ := (hks k).1 hk
    rw [scan_one hs ht]
    simp only [ent, hsrc s hs]
  refine ⟨(ks.map ent).filterMap id, !ks.isEmpty, ?_, ?_, ?_, ?_⟩
  · show (mapOpt (scanKey db t) ks).map _ = _
    rw [mapOpt_some _ ent ks hscan]
    rfl
  · intro s x y
    rw [List.mem_filterMap]
    constructor
    · rintro ⟨o, ho', hoe⟩
      rw [id_eq] at hoe
      rw [List.mem_map] at ho'
      obtain ⟨k, hk, rfl⟩ := ho'
      obtain ⟨_, s', hs', rfl⟩ := (hks k).1 hk
      simp only [ent, hsrc s' hs'] at hoe
      split at hoe
      · cases hoe
      · next hb =>
        have hb := Bool.eq_false_iff.2 hb
        have hz := inf_nonzero.1 hb
        have hf : (infSrcTrg db s' t).2 = true := by
          cases h : (infSrcTrg db s' t).2 with
          | true => rfl
          | false => rw [h] at hb; simp at hb
        rw [inf_val hf] at hoe
        simp only [Option.some.injEq, Prod.mk.injEq] at hoe
        obtain ⟨rfl, rfl, rfl⟩ := hoe
        exact ⟨hs', rfl, rfl, hz.1, hz.2⟩
    · rintro ⟨hs, rfl, rfl, hx, hy⟩
      have hb := inf_nonzero.2 ⟨hx, hy⟩
      have hf : (infSrcTrg db s t).2 = true := by
        cases h : (infSrcTrg db s t).2 with
        | true => rfl
        | false => rw [h] at hb; simp at hb
      have hmem : key (encodeTrgSrc s t) ∈ db.map Prod.fst := by
        apply Classical.byContradiction
        intro hc
        apply hy
        unfold cSrcTrg getInfo
        rw [lk_none_iff.2 hc]; rfl
      refine ⟨ent (key (encodeTrgSrc s t)), List.mem_map_of_mem ((hks _).2 ⟨hmem, s, hs, rfl⟩), ?_⟩
      rw [inf_val hf] at hb
      simp only [ent, hsrc s hs, id_eq, inf_val hf, hb, Bool.false_eq_true, if_false]
  · have hnd : ks.Nodup := hi.distinct.filter _
    have : (ks.map ent).filterMap id = ks.filterMap ent := by
      rw [List.filterMap_map]; rfl
    rw [this, List.map_filterMap, List.Nodup, List.pairwise_filterMap]
    refine List.Pairwise.imp_of_mem ?_ hnd
    intro k k' hk hk' hne x hx y hy hxy
    obtain ⟨_, s, hs, rfl⟩ := (hks k).1 hk
    obtain ⟨_, s', hs', rfl⟩ := (hks k').1 hk'
    have e1 : ∀ s, Ok s → ∀ x, (ent (key (encodeTrgSrc s t))).map Prod.fst = some x → x = s := by
      intro s hs x hx
      simp only [ent, hsrc s hs] at hx
      split at hx
      · cases hx
      · simpa using hx.symm
    have := e1 s hs x hx
    have := e1 s' hs' y hy
    subst_vars
    exact hne rfl
  · constructor
    · intro h
      cases hk : ks with
      | nil => rw [hk] at h; simp at h
      | cons k r =>
        obtain ⟨h1, s, hs, rfl⟩ := (hks k).1 (by rw [hk]; exact List.mem_cons_self ..)
        refine ⟨s, hs, ?_⟩
        cases hl : lk db (key (encodeTrgSrc s t)) with
        | some _ => rfl
        | none => exact absurd h1 (lk_none_iff.1 hl)
    · rintro ⟨s, hs, h⟩
      have : key (encodeTrgSrc s t) ∈ ks := by
        rw [hks]
        refine ⟨?_, s, hs, rfl⟩
        apply Classical.byContradiction
        intro hc
        rw [lk_none_iff.2 hc] at h; cases h
      cases hk : ks with
      | nil => rw [hk] at this; cases this
      | cons k r => rfl

/-- The restriction to non-empty target phrases is needed: for the empty one, source records are returned as pairs. -/
theorem C29_empty_target : (getEntriesForTarget (run [.addSrc [5] 3]) []).map Prod.fst = some [([5], (3, 3))] := by
  decide +kernel

/-- The separator must not be used as a word: with target (5) and another target (5,2,7), the scan for (5) returns a
phrase of the other target. -/
theorem C29_separator : ∃ os, (getEntriesForTarget (run os) [5]).map (fun r => r.1.map Prod.fst) = some [[7, 2, 8]] ∧
    (∀ o ∈ os, ∀ s c d, o ≠ .add s [5] c d) :=
  ⟨[.addSrc [7, 2, 8] 1, .add [8] [5, 2, 7] 4 4], by decide +kernel, by intro o ho s c d; simp at ho; rcases ho with rfl | rfl <;> simp⟩

/-- Non-vacuity: a valid history and what the scan returns. -/
example : (∀ o ∈ [Op.add [8] [5] 4 4, .incr [9] [5, 6] 2, .incr [9] [5] 1], OpOk o) ∧
    getEntriesForTarget (run [Op.add [8] [5] 4 4, .incr [9] [5, 6] 2, .incr [9] [5] 1]) [5] =
      some ([([8], (4, 4)), ([9], (3, 1))], true) := by
  refine ⟨?_, by decide +kernel⟩
  have hok : ∀ n, n < 10 → n ≠ 2 → Ok [n] := by
    intro n h1 h2
    refine ⟨?_, by simpa using fun h => h2 h.symm⟩
    intro w hw; simp at hw; omega
  have h56 : Ok [5, 6] := by
    refine ⟨?_, by decide⟩
    intro w hw; simp at hw; omega
  intro o ho
  simp only [List.mem_cons, List.not_mem_nil, or_false] at ho
  rcases ho with rfl | rfl | rfl
  · exact ⟨hok 8 (by omega) (by omega), hok 5 (by omega) (by omega), by simp⟩
  · exact ⟨hok 9 (by omega) (by omega), h56, by simp⟩
  · exact ⟨hok 9 (by omega) (by omega), hok 5 (by omega) (by omega), by simp⟩

/-- **C29 (rounding).** The stored integer is the nearest one; integers are stored as they are, and of two nearest ones
the one away from zero is stored. -/
theorem C29_round (x : Rat) : x - 1/2 ≤ (roundHalfAway x : Rat) ∧ (roundHalfAway x : Rat) ≤ x + 1/2 ∧
    (∀ n : Int, roundHalfAway n = n) ∧ (0 ≤ x → x - 1/2 < (roundHalfAway x : Rat)) ∧
    (x < 0 → (roundHalfAway x : Rat) < x + 1/2) := by
  have key : ∀ y : Rat, y - 1/2 < ((y + 1/2).floor : Rat) ∧ ((y + 1/2).floor : Rat) ≤ y + 1/2 := by
    intro y
    refine ⟨?_, Rat.floor_le _⟩
    have := Rat.lt_floor_add_one (y + 1/2)
    push_cast at this
    grind
  have h1 := key x
  have h2 := key (-x)
  unfold roundHalfAway
  refine ⟨?_, ?_, round_int, ?_, ?_⟩
  · split
    · push_cast; grind
    · grind
  · split
    · push_cast; grind
    · grind
  · intro h
    rw [if_neg (by grind)]; exact h1.1
  · intro h
    rw [if_pos h]; push_cast; grind

end Thot.LevelDb
