import Verif.Hmm.Viterbi
/-!
Claims about the Viterbi alignment (C103, C104).

Specification: an alignment of a target sentence gives each target word a position `1..2n` of the extended source
sentence, where `n` is the source length; positions `1..n` are the source words and a position `n+i` is the NULL word
reached after source position `i`.  Its score adds the transition and the word translation scores along the sentence.
-/
namespace Thot.Hmm

/-! ### Specification -/

/-- The word of position `i` (from 1) of the extended source sentence. -/
def wordAt (src : List Nat) (i : Nat) : Nat := if i ≤ src.length then src.getD (i - 1) 0 else nullWord

/-- Score of an alignment `as` of the target words `ts`, when the previous position is `prev`. -/
def pathScore (S : Scores) (src : List Nat) : Nat → List Nat → List Nat → Rat
  | prev, t :: ts, a :: as => S.la prev src.length a + S.lp (wordAt src a) t + pathScore S src a ts as
  | _, _, _ => 0

/-- `raw` is an alignment of the target sentence. -/
def IsAlig (src trg raw : List Nat) : Prop :=
  raw.length = trg.length ∧ ∀ i ∈ raw, 1 ≤ i ∧ i ≤ 2 * src.length

/-- The word alignment reported for positions of the extended sentence: source position, or 0 for NULL. -/
def report (src raw : List Nat) : List Nat := raw.map fun i => if i ≤ src.length then i else 0

/-- The sentence is neither empty nor too long. -/
def Fits (s : List Nat) : Prop := 1 ≤ s.length ∧ s.length ≤ 200

/-- No source word is the reserved word NULL. -/
def NoNull (src : List Nat) : Prop := ∀ w ∈ src, w ≠ 0

/-- The values held by a cache are those of the model. -/
def CacheGood (S : Scores) (c : Cache) : Prop := ∀ p s i, c p s i < 99 → c p s i = S.la p s i

/-! ### Lemmas -/

theorem cacheGood_iff (S : Scores) (c : Cache) : CacheGood S c ↔ CacheOk S.la c := by
  unfold CacheGood CacheOk Cache.isDefined invalidVal
  constructor
  · intro h p s i hd
    refine h p s i (Rat.not_le.1 ?_)
    simpa using hd
  · intro h p s i hd
    refine h p s i ?_
    simpa using Rat.not_le.2 hd

theorem fits_iff (s : List Nat) : lenOk s = true ↔ Fits s := by
  unfold lenOk Fits maxSentLen
  cases s with
  | nil => simp
  | cons a l => simp

theorem length_extend (src : List Nat) : (extendWithNull src).length = 2 * src.length := by
  simp [extendWithNull]; omega

theorem getSrcLen_extend {src : List Nat} (h : NoNull src) : getSrcLen (extendWithNull src) = src.length := by
  unfold getSrcLen extendWithNull
  rw [List.countP_append]
  have h1 : List.countP (fun w => w != nullWord) src = src.length := by
    rw [List.countP_eq_length]
    intro w hw; simpa [nullWord] using h w hw
  have h2 : List.countP (fun w => w != nullWord) (List.replicate src.length nullWord) = 0 := by
    rw [List.countP_eq_zero]
    intro w hw
    rw [List.eq_of_mem_replicate hw]; simp
  omega

theorem word_extend {src : List Nat} {i : Nat} (h1 : 1 ≤ i) (h2 : i ≤ 2 * src.length) :
    (extendWithNull src).getD (i - 1) 0 = wordAt src i := by
  unfold extendWithNull wordAt
  by_cases h : i ≤ src.length
  · rw [if_pos h, List.getD_eq_getElem?_getD, List.getD_eq_getElem?_getD, List.getElem?_append_left (by omega)]
  · rw [if_neg h, List.getD_eq_getElem?_getD, List.getElem?_append_right (by omega), List.getElem?_replicate]
    split
    · rfl
    · rfl

theorem pathScore_snoc (S : Scores) (src : List Nat) (prev : Nat) (ts as : List Nat) (t a : Nat)
    (hl : as.length = ts.length) :
    pathScore S src prev (ts ++ [t]) (as ++ [a]) =
      pathScore S src prev ts as + (S.la (as.getLastD prev) src.length a + S.lp (wordAt src a) t) := by
  induction ts generalizing prev as with
  | nil =>
    have : as = [] := List.length_eq_zero_iff.1 hl
    subst this
    simp only [List.nil_append, pathScore, List.getLastD_nil]
    grind
  | cons t' ts ih =>
    cases as with
    | nil => simp at hl
    | cons a' as =>
      simp only [List.cons_append, pathScore]
      rw [ih a' as (by simpa using hl), List.getLastD_cons]
      grind

/-- `n = 2·slen` positions, cells over the sentence pair. -/
theorem cell_upper {S : Scores} {src trg : List Nat} (j : Nat) (hj : j + 1 ≤ trg.length)
    (as : List Nat) (hl : as.length = j) (hb : ∀ x ∈ as, 1 ≤ x ∧ x ≤ 2 * src.length) (i : Nat) (hi : 1 ≤ i ∧ i ≤ 2 * src.length) :
    pathScore S src 0 (trg.take (j + 1)) (as ++ [i]) ≤
      (cell S (extendWithNull src) trg src.length i (j + 1)).1 := by
  induction j generalizing as i with
  | zero =>
    have : as = [] := List.length_eq_zero_iff.1 hl
    subst this
    rw [cell_one]
    obtain ⟨t, ts, rfl⟩ : ∃ t ts, trg = t :: ts := by
      cases trg with
      | nil => simp at hj
      | cons t ts => exact ⟨t, ts, rfl⟩
    simp only [List.nil_append, List.take_succ_cons, List.take_zero, pathScore, lexCell, Nat.sub_self]
    rw [word_extend hi.1 hi.2]
    show _ ≤ S.la 0 src.length i + S.lp (wordAt src i) t
    grind
  | succ j ih =>
    obtain ⟨as', i', rfl⟩ : ∃ as' i', as = as' ++ [i'] := by
      rcases as.eq_nil_or_concat with rfl | ⟨l, b, rfl⟩
      · simp at hl
      · exact ⟨l, b, by simp⟩
    have hl' : as'.length = j := by simpa using hl
    have hb' := hb i' (by simp)
    have h1 := ih (by omega) as' hl' (fun x hx => hb x (by simp [hx])) i' hb'
    have ht : trg.take (j + 2) = trg.take (j + 1) ++ [trg.getD (j + 1) 0] := by
      rw [List.take_add_one, List.getElem?_eq_getElem (by omega)]
      rw [List.getD_eq_getElem?_getD, List.getElem?_eq_getElem (by omega)]; rfl
    rw [ht, pathScore_snoc]
    · rw [cell_succ _ _ _ _ _ (by omega)]
      have h2 := (cellLoop (fun it => (cell S (extendWithNull src) trg src.length it (j + 1)).1 + S.la it src.length i +
        lexCell S (extendWithNull src) trg i (j + 1 + 1)) small (extendWithNull src).length).1.2 i' hb'.1
        (by rw [length_extend]; exact hb'.2)
      have h3 : lexCell S (extendWithNull src) trg i (j + 1 + 1) = S.lp (wordAt src i) (trg.getD (j + 1) 0) := by
        unfold lexCell; rw [word_extend hi.1 hi.2]; rfl
      rw [List.getLastD_eq_getLast?, List.getLast?_append]
      simp only [List.getLast?_singleton, Option.or_some, Option.getD_some]
      rw [h3] at h2 ⊢
      grind
    · simp only [List.length_append, List.length_singleton, hl', List.length_take]; omega

theorem cell_traced {S : Scores} {src trg : List Nat} (hla : ∀ p i, S.la p src.length i ≤ 0) (hlp : ∀ s t, S.lp s t ≤ 0)
    (pred : Mat Nat)
    (hp : ∀ i j, 1 ≤ i → i ≤ 2 * src.length → 1 ≤ j → j ≤ trg.length →
      pred i j = (cell S (extendWithNull src) trg src.length i j).2)
    (j : Nat) (hj : j + 1 ≤ trg.length) (i : Nat) (hi : 1 ≤ i ∧ i ≤ 2 * src.length)
    (hv : j = 0 ∨ small < (cell S (extendWithNull src) trg src.length i (j + 1)).1) :
    (vitTrace pred i (j + 1)).length = j + 1 ∧ (∀ x ∈ vitTrace pred i (j + 1), 1 ≤ x ∧ x ≤ 2 * src.length) ∧
      pathScore S src 0 (trg.take (j + 1)) (vitTrace pred i (j + 1)) =
        (cell S (extendWithNull src) trg src.length i (j + 1)).1 := by
  induction j generalizing i with
  | zero =>
    obtain ⟨t, ts, rfl⟩ : ∃ t ts, trg = t :: ts := by
      cases trg with
      | nil => simp at hj
      | cons t ts => exact ⟨t, ts, rfl⟩
    rw [cell_one]
    simp only [vitTrace, List.nil_append]
    refine ⟨rfl, fun x hx => by rw [List.mem_singleton] at hx; subst hx; exact hi, ?_⟩
    simp only [List.take_succ_cons, List.take_zero, pathScore, lexCell, Nat.sub_self]
    rw [word_extend hi.1 hi.2]
    show _ = S.la 0 src.length i + S.lp (wordAt src i) t
    grind
  | succ j ih =>
    have hv : small < (cell S (extendWithNull src) trg src.length i (j + 1 + 1)).1 := by
      rcases hv with hv | hv
      · omega
      · exact hv
    have hc := cell_succ S (extendWithNull src) trg src.length i (j := j + 1) (by omega)
    have h2 := (cellLoop (fun it => (cell S (extendWithNull src) trg src.length it (j + 1)).1 + S.la it src.length i +
        lexCell S (extendWithNull src) trg i (j + 1 + 1)) small (extendWithNull src).length).2
    rw [← hc] at h2
    rw [length_extend] at h2
    rcases h2 with h2 | ⟨a1, a2, a3, a4⟩
    · rw [h2] at hv; exact absurd hv (Rat.not_lt.2 Rat.le_refl)
    · obtain ⟨it, hit⟩ : ∃ it, it = (cell S (extendWithNull src) trg src.length i (j + 1 + 1)).2 := ⟨_, rfl⟩
      have hpi := hp i (j + 1 + 1) hi.1 hi.2 (by omega) hj
      rw [← hit] at a2 a3 a4 hpi
      have h3 : lexCell S (extendWithNull src) trg i (j + 1 + 1) = S.lp (wordAt src i) (trg.getD (j + 1) 0) := by
        unfold lexCell; rw [word_extend hi.1 hi.2]; rfl
      rw [h3] at a4
      have hb1 := hla it i
      have hb2 := hlp (wordAt src i) (trg.getD (j + 1) 0)
      obtain ⟨k1, k2, k3⟩ := ih (by omega) it ⟨a2, a3⟩ (Or.inr (by grind))
      rw [show vitTrace pred i (j + 1 + 1) = vitTrace pred it (j + 1) ++ [i] by rw [vitTrace, hpi]]
      refine ⟨by rw [List.length_append, k1]; rfl, ?_, ?_⟩
      · intro x hx
        rcases List.mem_append.1 hx with hx | hx
        · exact k2 x hx
        · rw [List.mem_singleton] at hx; subst hx; exact hi
      · have ht : trg.take (j + 2) = trg.take (j + 1) ++ [trg.getD (j + 1) 0] := by
          rw [List.take_add_one, List.getElem?_eq_getElem (by omega)]
          rw [List.getD_eq_getElem?_getD, List.getElem?_eq_getElem (by omega)]; rfl
        rw [ht, pathScore_snoc, k3, a4]
        · rw [show vitTrace pred it (j + 1) = vitTrace pred (pred it (j + 1)) j ++ [it] from rfl]
          rw [List.getLastD_eq_getLast?, List.getLast?_append]
          simp only [List.getLast?_singleton, Option.or_some, Option.getD_some]
          grind
        · rw [k1, List.length_take]; omega

theorem bestAligRaw_spec (n J : Nat) (vit : Mat Rat) (pred : Mat Nat) (hn : 1 ≤ n) (hJ : 1 ≤ J) :
    ∃ i, 1 ≤ i ∧ i ≤ n ∧ bestAligRaw n J vit pred = some (vit i J, vitTrace pred i J) ∧
      ∀ i', 1 ≤ i' → i' ≤ n → vit i' J ≤ vit i J := by
  obtain ⟨h1, h2, h3, h4⟩ := vitLast_spec n J vit hn
  refine ⟨(vitLast n J vit).2, h1, h2, ?_, fun i' a b => h3 ▸ h4 i' a b⟩
  unfold bestAligRaw
  rw [if_neg (by omega), if_neg (by omega)]
  dsimp only
  rw [h3]

/-! ### Claims -/

/-- **C103 (full)**: the alignment returned for two sentences is one of the alignments of the sentence pair, no
alignment scores more, and the returned log-probability is its score plus that of the sentence lengths. -/
def C103_full : Prop :=
  ∀ (S : Scores) (slm : Nat → Nat → Rat) (src trg : List Nat),
    (∀ p n i, S.la p n i ≤ 0) → (∀ s t, S.lp s t ≤ 0) → NoNull src → Fits src → Fits trg →
    ∃ v raw c', obtainBestAlignment S slm src trg Cache.empty =
        some (slm src.length trg.length + v, some (report src raw), c') ∧
      IsAlig src trg raw ∧ pathScore S src 0 trg raw = v ∧
      ∀ raw', IsAlig src trg raw' → pathScore S src 0 trg raw' ≤ v

/-- **C103 (partial)**: whatever the cache holds from earlier sentences, the returned log-probability is at least the
score of every alignment; it is the score of the returned alignment when it is above the floor `-99999` (or there is
a single target word), and it is the floor otherwise.  Missing from the full claim: when every alignment scores
`-99999` or less the alignment returned is not a best one. -/
theorem C103_viterbi_partial (S : Scores) (slm : Nat → Nat → Rat) (src trg : List Nat) (c : Cache)
    (hc : CacheGood S c) (hla : ∀ p n i, S.la p n i ≤ 0) (hlp : ∀ s t, S.lp s t ≤ 0)
    (hnn : NoNull src) (hs : Fits src) (ht : Fits trg) :
    ∃ v a c', obtainBestAlignment S slm src trg c = some (slm src.length trg.length + v, some a, c') ∧
      (∀ raw', IsAlig src trg raw' → pathScore S src 0 trg raw' ≤ v) ∧
      ((-99999 < v ∨ trg.length = 1) →
        ∃ raw, IsAlig src trg raw ∧ pathScore S src 0 trg raw = v ∧ a = report src raw) ∧
      (trg.length ≠ 1 → -99999 ≤ v) ∧ CacheGood S c' := by
  have hinv := viterbi_inv S (extendWithNull src) trg ((cacheGood_iff S c).1 hc)
  rw [getSrcLen_extend hnn] at hinv
  obtain ⟨st, hst⟩ : ∃ st, st = viterbi S (extendWithNull src) trg c := ⟨_, rfl⟩
  rw [← hst] at hinv
  have hJ : 1 ≤ trg.length := ht.1
  obtain ⟨i, h1, h2, h3, h4⟩ := bestAligRaw_spec (extendWithNull src).length trg.length st.vit st.pred
    (by rw [length_extend]; have := hs.1; omega) hJ
  rw [length_extend] at h2 h3 h4
  have hcell : ∀ i', 1 ≤ i' → i' ≤ 2 * src.length → ∀ j', 1 ≤ j' → j' ≤ trg.length →
      (st.vit i' j', st.pred i' j') = cell S (extendWithNull src) trg src.length i' j' :=
    fun i' a b j' d e => hinv.done i' j' a (by rw [length_extend]; exact b) d (Or.inl (by omega))
  have hvi : ∀ i', 1 ≤ i' → i' ≤ 2 * src.length →
      st.vit i' trg.length = (cell S (extendWithNull src) trg src.length i' trg.length).1 :=
    fun i' a b => congrArg Prod.fst (hcell i' a b trg.length hJ (Nat.le_refl _))
  have hpr : ∀ i' j', 1 ≤ i' → i' ≤ 2 * src.length → 1 ≤ j' → j' ≤ trg.length →
      st.pred i' j' = (cell S (extendWithNull src) trg src.length i' j').2 :=
    fun i' j' a b d e => congrArg Prod.snd (hcell i' a b j' d e)
  obtain ⟨J, hJe⟩ : ∃ J, trg.length = J + 1 := ⟨trg.length - 1, by omega⟩
  have htake : trg.take (J + 1) = trg := List.take_of_length_le (by omega)
  refine ⟨st.vit i trg.length, report src (vitTrace st.pred i trg.length), st.cache, ?_, ?_, ?_, ?_,
    (cacheGood_iff S _).2 hinv.ok⟩
  · unfold obtainBestAlignment
    rw [if_pos (by rw [(fits_iff src).2 hs, (fits_iff trg).2 ht]; rfl)]
    dsimp only
    rw [← hst, length_extend, h3]
    simp only [Option.map_some, bestAligNull, report]
    congr 3
    congr 1
    apply List.map_congr_left
    intro x _
    by_cases hx : x ≤ src.length
    · rw [if_neg (by omega), if_pos hx]
    · rw [if_pos (by omega), if_neg hx]; rfl
  · rintro raw' ⟨r1, r2⟩
    rcases raw'.eq_nil_or_concat with rfl | ⟨l, b, rfl⟩
    · simp at r1; omega
    · rw [List.concat_eq_append] at r1 r2 ⊢
      have hb := r2 b (by simp)
      have := cell_upper (S := S) (src := src) (trg := trg) J (by omega) l (by simp at r1; omega)
        (fun x hx => r2 x (by simp [hx])) b hb
      rw [htake, ← hJe, ← hvi b hb.1 hb.2] at this
      exact Rat.le_trans this (h4 b hb.1 hb.2)
  · intro hv
    have := cell_traced (fun p i => hla p src.length i) hlp st.pred hpr J (by omega) i ⟨h1, h2⟩
      (by
        rcases hv with hv | hv
        · right; rw [← hJe, ← hvi i h1 h2]; exact hv
        · left; omega)
    rw [htake, ← hJe, ← hvi i h1 h2] at this
    exact ⟨_, ⟨this.1, this.2.1⟩, this.2.2, rfl⟩
  · intro hne
    rw [hvi i h1 h2, hJe, cell_succ _ _ _ _ _ (by omega)]
    exact (cellLoop _ _ _).1.1

/-- Scores of the counterexample: the source word 1 translates only to the target word 1. -/
def exScores : Scores := { la := fun _ _ _ => -1, lp := fun s t => if s = 1 ∧ t = 1 then -1 else -99999 }

/-- The full claim is false: with an unknown first target word the returned alignment is the NULL alignment of
position 0 and the log-probability is the floor. -/
theorem C103_counterexample : ¬ C103_full := by
  intro h
  obtain ⟨v, raw, c', h1, h2, h3, h4⟩ := h exScores (fun _ _ => 0) [1] [2, 1]
    (fun _ _ _ => (by decide +kernel : (-1 : Rat) ≤ 0)) (by intro s t; unfold exScores; dsimp only; split <;> decide +kernel)
    (by intro w hw; simp at hw; omega) ⟨by decide, by decide⟩ ⟨by decide, by decide⟩
  have e1 : (obtainBestAlignment exScores (fun _ _ => 0) [1] [2, 1] Cache.empty).map (fun r => (r.1, r.2.1)) =
      some (-99999, some [0, 1]) := by decide +kernel
  rw [h1] at e1
  simp only [Option.map_some, Option.some.injEq, Prod.mk.injEq] at e1
  obtain ⟨e2, e3⟩ := e1
  have e4 : ∀ x ∈ raw, x = 1 ∨ x = 2 := fun x hx => by have := h2.2 x hx; simp at this; omega
  match raw, h2.1 with
  | [a, b], _ =>
    have hv : v = -99999 := by grind
    subst hv
    have h5 := h4 [1, 1] ⟨rfl, by decide⟩
    have ea := e4 a (by simp)
    have eb := e4 b (by simp)
    rcases ea with rfl | rfl <;> rcases eb with rfl | rfl <;> revert h3 <;> decide +kernel

/-- The partial claim is not vacuous: two words are aligned monotonically. -/
example : (obtainBestAlignment
      { la := fun p _ i => if i = p + 1 then -1 else -3, lp := fun s t => if s = t then -1 else -5 }
      (fun _ _ => -2) [3, 4, 5] [3, 4, 5] Cache.empty).map (fun r => (r.1, r.2.1)) = some (-8, some [1, 2, 3]) := by
  decide +kernel

/-- Aligning a list of sentence pairs one after the other with a shared cache. -/
def alignAll (S : Scores) (slm : Nat → Nat → Rat) : List (List Nat × List Nat) → Cache →
    List (Option (Rat × Option (List Nat)))
  | [], _ => []
  | (s, t) :: l, c =>
    match obtainBestAlignment S slm s t c with
    | some (p, a, c') => some (p, a) :: alignAll S slm l c'
    | none => [none]

theorem vitTrace_congr {pred pred' : Mat Nat} {n : Nat} (J : Nat)
    (h : ∀ i j, i ≤ n → 1 ≤ j → j ≤ J → pred i j = pred' i j ∧ pred i j ≤ n) (i : Nat) (hi : i ≤ n) :
    vitTrace pred i J = vitTrace pred' i J := by
  induction J generalizing i with
  | zero => rfl
  | succ J ih =>
    obtain ⟨h1, h2⟩ := h i (J + 1) hi (by omega) (Nat.le_refl _)
    rw [vitTrace, vitTrace, ← h1, ih (fun a b ha hb hc => h a b ha hb (by omega)) _ h2]

theorem cell_pred_le (S : Scores) (nsrc trg : List Nat) (slen i j : Nat) (hj : 1 ≤ j) :
    (cell S nsrc trg slen i j).2 ≤ nsrc.length := by
  obtain ⟨j, rfl⟩ : ∃ k, j = k + 1 := ⟨j - 1, by omega⟩
  by_cases h : j = 0
  · subst h; rw [cell_one]; exact Nat.zero_le _
  · rw [cell_succ _ _ _ _ _ h]
    rcases (cellLoop (fun it => (cell S nsrc trg slen it j).1 + S.la it slen i + lexCell S nsrc trg i (j + 1)) small
      nsrc.length).2 with h1 | h1
    · rw [h1]; exact Nat.zero_le _
    · exact h1.2.2.1

theorem viterbi_cache_irrel (S : Scores) (nsrc trg : List Nat) {c c' : Cache} (hc : CacheOk S.la c) (hc' : CacheOk S.la c')
    (hn : 1 ≤ nsrc.length) (hJ : 1 ≤ trg.length) :
    bestAligRaw nsrc.length trg.length (viterbi S nsrc trg c).vit (viterbi S nsrc trg c).pred =
      bestAligRaw nsrc.length trg.length (viterbi S nsrc trg c').vit (viterbi S nsrc trg c').pred := by
  have h1 := viterbi_inv S nsrc trg hc
  have h2 := viterbi_inv S nsrc trg hc'
  have hcell : ∀ i j, 1 ≤ i → i ≤ nsrc.length → 1 ≤ j → j ≤ trg.length →
      (viterbi S nsrc trg c).vit i j = (viterbi S nsrc trg c').vit i j ∧
      (viterbi S nsrc trg c).pred i j = (viterbi S nsrc trg c').pred i j ∧
      (viterbi S nsrc trg c).pred i j ≤ nsrc.length := by
    intro i j a b d e
    have e1 := h1.done i j a b d (Or.inl (by omega))
    have e2 := h2.done i j a b d (Or.inl (by omega))
    have e3 := cell_pred_le S nsrc trg (getSrcLen nsrc) i j d
    rw [← e1] at e3
    rw [← e2] at e1
    exact ⟨congrArg Prod.fst e1, congrArg Prod.snd e1, e3⟩
  unfold bestAligRaw
  rw [if_neg (by omega), if_neg (by omega), if_neg (by omega), if_neg (by omega)]
  dsimp only
  have hl : vitLast nsrc.length trg.length (viterbi S nsrc trg c).vit =
      vitLast nsrc.length trg.length (viterbi S nsrc trg c').vit := by
    unfold vitLast
    rw [(hcell 1 trg.length (Nat.le_refl _) hn hJ (Nat.le_refl _)).1]
    have : ∀ (l : List Nat) (b : Rat × Nat), (∀ i ∈ l, 1 ≤ i ∧ i ≤ nsrc.length) →
        l.foldl (fun b i => if b.1 < (viterbi S nsrc trg c).vit i trg.length then
          ((viterbi S nsrc trg c).vit i trg.length, i) else b) b =
        l.foldl (fun b i => if b.1 < (viterbi S nsrc trg c').vit i trg.length then
          ((viterbi S nsrc trg c').vit i trg.length, i) else b) b := by
      intro l
      induction l with
      | nil => intro b _; rfl
      | cons a l ih =>
        intro b hb
        rw [List.foldl_cons, List.foldl_cons, ih _ (fun i hi => hb i (List.mem_cons_of_mem _ hi)),
          (hcell a trg.length (hb a List.mem_cons_self).1 (hb a List.mem_cons_self).2 hJ (Nat.le_refl _)).1]
    apply this
    intro i hi
    rw [List.mem_range'_1] at hi
    omega
  rw [← hl]
  have hb := vitLast_spec nsrc.length trg.length (viterbi S nsrc trg c).vit hn
  congr 2
  refine vitTrace_congr (n := nsrc.length) trg.length ?_ _ hb.2.1
  intro i j a b d
  by_cases hi : i = 0
  · subst hi
    have e1 := congrArg Prod.snd (h1.rest 0 j (Or.inr (Or.inr rfl)))
    have e2 := congrArg Prod.snd (h2.rest 0 j (Or.inr (Or.inr rfl)))
    dsimp only at e1 e2
    rw [e1, e2]; exact ⟨rfl, Nat.zero_le _⟩
  · exact (hcell i j (by omega) a b d).2

/-- **C104**: aligning any list of sentence pairs with one shared cache gives, for each of them, exactly the
log-probability and the alignment obtained with a fresh cache. -/
theorem C104_cache_transparent (S : Scores) (slm : Nat → Nat → Rat) (l : List (List Nat × List Nat)) :
    alignAll S slm l Cache.empty =
      l.map fun p => (obtainBestAlignment S slm p.1 p.2 Cache.empty).map fun r => (r.1, r.2.1) := by
  suffices h : ∀ c, CacheOk S.la c → alignAll S slm l c =
      l.map fun p => (obtainBestAlignment S slm p.1 p.2 Cache.empty).map fun r => (r.1, r.2.1) from
    h _ (cacheOk_empty _)
  induction l with
  | nil => intro c _; rfl
  | cons p l ih =>
    obtain ⟨s, t⟩ := p
    intro c hc
    rw [List.map_cons, alignAll]
    by_cases hlen : (lenOk s && lenOk t) = true
    · have hs : Fits s := (fits_iff s).1 (by grind)
      have ht : Fits t := (fits_iff t).1 (by grind)
      have hn : 1 ≤ (extendWithNull s).length := by rw [length_extend]; have := hs.1; omega
      obtain ⟨i, _, _, h3, _⟩ := bestAligRaw_spec (extendWithNull s).length t.length
        (viterbi S (extendWithNull s) t c).vit (viterbi S (extendWithNull s) t c).pred hn ht.1
      have h4 := viterbi_cache_irrel S (extendWithNull s) t hc (cacheOk_empty S.la) hn ht.1
      have e1 : obtainBestAlignment S slm s t c =
          (bestAligRaw (extendWithNull s).length t.length (viterbi S (extendWithNull s) t c).vit
            (viterbi S (extendWithNull s) t c).pred).map fun r =>
              (slm s.length t.length + (bestAligNull s.length r).1, some (bestAligNull s.length r).2,
                (viterbi S (extendWithNull s) t c).cache) := by
        unfold obtainBestAlignment; rw [if_pos hlen]
      have e2 : obtainBestAlignment S slm s t Cache.empty =
          (bestAligRaw (extendWithNull s).length t.length (viterbi S (extendWithNull s) t Cache.empty).vit
            (viterbi S (extendWithNull s) t Cache.empty).pred).map fun r =>
              (slm s.length t.length + (bestAligNull s.length r).1, some (bestAligNull s.length r).2,
                (viterbi S (extendWithNull s) t Cache.empty).cache) := by
        unfold obtainBestAlignment; rw [if_pos hlen]
      rw [e1, e2, ← h4, h3]
      simp only [Option.map_some]
      rw [ih _ (viterbi_inv S (extendWithNull s) t hc).ok]
    · have e : ∀ c, obtainBestAlignment S slm s t c = some (small, none, c) := by
        intro c; unfold obtainBestAlignment; rw [if_neg hlen]
      rw [e, e]
      simp only [Option.map_some]
      rw [ih c hc]

end Thot.Hmm
