import Verif.LangModel.Props
/-! C99 (probabilities) and C100 (score of a sentence) of the n-gram language model with Jelinek-Mercer interpolation. -/
namespace Thot.LangModel

open Thot

/-! ### Specification -/

/-- Relative frequency of `w` after `h`. -/
def freq (m : LM) (w : Word) (h : List Word) : Rat :=
  if m.cHistStr h = 0 then 0 else m.cNgramStr w h / m.cHistStr h

/-- The interpolation weight of a history: the one for its length and for the bucket in which its count falls. -/
def lam (m : LM) (h : List Word) : Rat :=
  if m.nbuck = 1 then m.weights.getD h.length 0
  else m.weights.getD (h.length * m.nbuck + min (m.cHistStr h / m.bsize).floor.toNat (m.nbuck - 1)) 0

/-- Jelinek-Mercer interpolation of the relative frequencies after `h` and after its suffixes, and of the uniform
distribution over `n` words. -/
def jm (m : LM) (n : Nat) (w : Word) : List Word → Rat
  | [] => lam m [] * freq m w [] + (1 - lam m []) * (1 / (n : Rat))
  | a :: h => lam m (a :: h) * freq m w (a :: h) + (1 - lam m (a :: h)) * jm m n w h

/-- The history without the extra begin of sentence symbols at its start. -/
def strip : List Word → List Word
  | a :: b :: h => if a = bosStr ∧ b = bosStr then strip (b :: h) else a :: b :: h
  | h => h

/-- There are weights for histories of up to `k` words, and they lie between 0 and 1. -/
structure WOk (m : LM) (k : Nat) : Prop where
  buckets : m.nbuck = 1 ∨ (1 < m.nbuck ∧ 0 < m.bsize)
  enough : (k + 1) * m.nbuck ≤ m.weights.length
  unit : ∀ x ∈ m.weights, 0 ≤ x ∧ x ≤ 1

/-- The calls of a history add no negative counts. -/
def NonNeg : Op → Prop
  | .train _ c _ => 0 ≤ c
  | .incr _ _ c => 0 ≤ c
  | _ => True

/-- The probability that the model gives to `w` after the history `h` (the exponential of `getNgramLgProbStr`). -/
def prob (m : LM) (w : Word) (h : List Word) : Option Rat := m.p (m.enc.codes h).2 (m.enc.code w).2

/-! ### Proofs -/

theorem codes_nil (e : Enc) : (e.codes []).2 = [] := rfl

theorem codes_cons (e : Enc) (a : Word) (h : List Word) : (e.codes (a :: h)).2 = (e.code a).2 :: (e.codes h).2 := rfl

theorem codes_length (e : Enc) (h : List Word) : (e.codes h).2.length = h.length := by simp [Enc.codes]

theorem cHist_codes {m : LM} {h : List Word} (hk : ∀ x ∈ h, m.existSymbol x = true) :
    m.cHist (m.enc.codes h).2 = m.cHistStr h := by
  unfold LM.cHistStr LM.cHist
  rw [if_pos (codes_fst.2 hk)]

theorem p_codes {m : LM} {h : List Word} {w : Word} (hk : ∀ x ∈ h, m.existSymbol x = true) (hw : m.existSymbol w = true) :
    m.tbl.p (m.enc.codes h).2 (m.enc.code w).2 = freq m w h := by
  rw [p_eq]
  have h1 := cHist_codes hk
  unfold LM.cHist at h1
  unfold freq
  rw [h1]
  have h2 : m.cNgramStr w h = m.tbl.cSrcTrg (m.enc.codes h).2 (m.enc.code w).2 := by
    unfold LM.cNgramStr
    rw [if_pos (codes_fst.2 hk), if_pos (c := (m.enc.code w).1 = true) hw]
  rw [h2]

theorem WOk.mono {m : LM} {k j : Nat} (h : WOk m k) (hj : j ≤ k) : WOk m j :=
  ⟨h.buckets, Nat.le_trans (Nat.mul_le_mul_right _ (by omega)) h.enough, h.unit⟩

theorem weight_lam {m : LM} {h : List Word} (hw : WOk m h.length) (hk : ∀ x ∈ h, m.existSymbol x = true) :
    m.weight (m.enc.codes h).2 = some (lam m h) ∧ 0 ≤ lam m h ∧ lam m h ≤ 1 ∧ lam m h ∈ m.weights := by
  have key : ∀ i, i < m.weights.length → m.weights[i]? = some (m.weights.getD i 0) ∧
      0 ≤ m.weights.getD i 0 ∧ m.weights.getD i 0 ≤ 1 ∧ m.weights.getD i 0 ∈ m.weights := by
    intro i hi
    have h2 : m.weights.getD i 0 ∈ m.weights := by
      rw [List.getD_eq_getElem?_getD, List.getElem?_eq_getElem hi]; simp
    exact ⟨by rw [List.getD_eq_getElem?_getD, List.getElem?_eq_getElem hi]; rfl, (hw.unit _ h2).1, (hw.unit _ h2).2, h2⟩
  unfold LM.weight lam
  rcases hw.buckets with hb | ⟨hb, hbs⟩
  · rw [if_pos hb, if_pos hb, codes_length]
    refine key _ ?_
    have := hw.enough
    rw [hb] at this; omega
  · have h1 : ¬ m.nbuck = 1 := by omega
    have h2 : ¬ m.bsize ≤ 0 := by grind
    have h3 : ¬ m.nbuck = 0 := by omega
    rw [if_neg h1, if_neg h2, if_neg h1]
    dsimp only
    rw [if_neg h3, codes_length, cHist_codes hk]
    refine key _ ?_
    have := hw.enough
    rw [Nat.add_mul, Nat.one_mul] at this
    have : min (m.cHistStr h / m.bsize).floor.toNat (m.nbuck - 1) ≤ m.nbuck - 1 := Nat.min_le_right _ _
    omega

theorem pRec_jm {m : LM} {h : List Word} {w : Word} (hw : WOk m h.length) (hk : ∀ x ∈ h, m.existSymbol x = true)
    (hx : m.existSymbol w = true) : m.pRec (m.enc.codes h).2 (m.enc.code w).2 = some (jm m m.vocabSize w h) := by
  induction h with
  | nil =>
    have h1 := (weight_lam hw hk).1
    rw [codes_nil] at h1 ⊢
    have h2 := p_codes (h := []) hk hx
    rw [codes_nil] at h2
    unfold LM.pRec jm
    rw [h1, h2]; rfl
  | cons a h ih =>
    have h1 := (weight_lam hw hk).1
    have h2 := p_codes hk hx
    have h3 := ih (hw.mono (by simp)) (fun x hh => hk x (List.mem_cons_of_mem _ hh))
    rw [codes_cons] at h1 h2 ⊢
    unfold LM.pRec jm
    rw [h1, h2, h3]; rfl

/-- What the proofs need of the model: the state after a history. -/
structure Reach (m : LM) : Prop where
  ok : Ok m
  nonneg : ∀ w h, 0 ≤ m.cNgramStr w h
  hist : ∀ h, ∀ V : List Word, V.Nodup → (∀ x, m.existSymbol x = true → x ∈ V) →
    m.cHistStr h = sumBy (fun w => m.cNgramStr w h) V
  std : m.existSymbol bosStr = true ∧ m.existSymbol eosStr = true

theorem count_nonneg (ops : List Op) (hn : ∀ op ∈ ops, NonNeg op) (w : Word) (h : List Word) : 0 ≤ count w h ops := by
  induction ops with
  | nil => exact Rat.le_refl
  | cons op r ih =>
    have ih := ih (fun o ho => hn o (List.mem_cons_of_mem _ ho))
    cases op with
    | addSymbol w' => exact ih
    | incr w' h' c =>
      have hc : 0 ≤ c := hn _ List.mem_cons_self
      simp only [count]; grind
    | train s c lb =>
      have hc : 0 ≤ c := hn _ List.mem_cons_self
      have h3 : 0 ≤ c * (occ (h ++ [w]) (framed s) : Rat) := Rat.mul_nonneg hc Rat.natCast_nonneg
      simp only [count]
      split
      · grind
      · exact ih
    | setOrder n => exact ih
    | setWeights ws nb bs => exact ih
    | clear => exact Rat.le_refl

theorem reach_run (ops : List Op) (hn : ∀ op ∈ ops, NonNeg op) : Reach (run ops) := by
  refine ⟨ok_run ops, fun w h => by rw [count_run]; exact count_nonneg ops hn w h, ?_, ?_⟩
  · intro h V hV hk
    exact hist_run ops h V hV (fun x hx => hk x ((known_run ops x).2 hx))
  · have key : ∀ x c, AMap.lk Enc.lm.w2c x = some c → (run ops).existSymbol x = true :=
      fun x c hx => code_true.2 ⟨c, (ext_run ops).keep _ _ hx⟩
    exact ⟨key _ 1 (by decide), key _ 2 (by decide)⟩

theorem freq_spec {m : LM} (r : Reach m) (h : List Word) (V : List Word) (hV : V.Nodup)
    (hk : ∀ x, m.existSymbol x = true → x ∈ V) :
    (∀ w, 0 ≤ freq m w h) ∧ sumBy (fun w => freq m w h) V = (if m.cHistStr h = 0 then 0 else 1) := by
  have h1 := r.hist h V hV hk
  have h0 : 0 ≤ m.cHistStr h := by rw [h1]; exact sumBy_nonneg (fun w _ => r.nonneg w h)
  unfold freq
  by_cases hc : m.cHistStr h = 0
  · simp only [hc, if_true]
    exact ⟨fun _ => Rat.le_refl, sumBy_zero (fun _ _ => rfl)⟩
  · simp only [hc, if_false]
    refine ⟨fun w => ?_, ?_⟩
    · rw [Rat.div_def]
      exact Rat.mul_nonneg (r.nonneg w h) (Rat.le_of_lt (Rat.inv_pos.2 (by grind)))
    · have h2 : ∀ w, m.cNgramStr w h / m.cHistStr h = (m.cHistStr h)⁻¹ * m.cNgramStr w h := by
        intro w; rw [Rat.div_def, Rat.mul_comm]
      rw [sumBy_congr (fun w _ => h2 w), sumBy_mul, ← h1, Rat.mul_comm]
      exact Rat.mul_inv_cancel _ hc

theorem jm_nonneg {m : LM} (r : Reach m) (n : Nat) (w : Word) (h : List Word) (hw : WOk m h.length)
    (hk : ∀ x ∈ h, m.existSymbol x = true) : 0 ≤ jm m n w h := by
  have hf : ∀ h, 0 ≤ freq m w h := fun h =>
    (freq_spec r h _ r.ok.enc.dist (fun x hx => (mem_vocab m x).2 hx)).1 w
  induction h with
  | nil =>
    obtain ⟨_, h1, h2, _⟩ := weight_lam hw hk
    have h3 := Rat.mul_nonneg h1 (hf [])
    have h4 : (0 : Rat) ≤ 1 / (n : Rat) := by
      rw [Rat.div_def, Rat.one_mul]
      by_cases h0 : n = 0
      · subst h0; decide +kernel
      · exact Rat.le_of_lt (Rat.inv_pos.2 (Rat.natCast_pos.2 (by omega)))
    have h5 := Rat.mul_nonneg (a := 1 - lam m []) (by grind) h4
    unfold jm; grind
  | cons a h ih =>
    obtain ⟨_, h1, h2, _⟩ := weight_lam hw hk
    have h3 := Rat.mul_nonneg h1 (hf (a :: h))
    have h5 := Rat.mul_nonneg (a := 1 - lam m (a :: h)) (by grind)
      (ih (hw.mono (by simp)) (fun x hh => hk x (List.mem_cons_of_mem _ hh)))
    unfold jm; grind

theorem jm_pos {m : LM} (r : Reach m) (n : Nat) (hn : 0 < n) (w : Word) (h : List Word) (hw : WOk m h.length)
    (hk : ∀ x ∈ h, m.existSymbol x = true) (hlt : ∀ x ∈ m.weights, x < 1) : 0 < jm m n w h := by
  have hf : ∀ h, 0 ≤ freq m w h := fun h =>
    (freq_spec r h _ r.ok.enc.dist (fun x hx => (mem_vocab m x).2 hx)).1 w
  induction h with
  | nil =>
    obtain ⟨_, h1, h2, h6⟩ := weight_lam hw hk
    have h3 := Rat.mul_nonneg h1 (hf [])
    have h4 : (0 : Rat) < 1 / (n : Rat) := by
      rw [Rat.div_def, Rat.one_mul]
      exact Rat.inv_pos.2 (Rat.natCast_pos.2 hn)
    have h7 := hlt _ h6
    have h5 := Rat.mul_pos (a := 1 - lam m []) (by grind) h4
    unfold jm; grind
  | cons a h ih =>
    obtain ⟨_, h1, h2, h6⟩ := weight_lam hw hk
    have h3 := Rat.mul_nonneg h1 (hf (a :: h))
    have h7 := hlt _ h6
    have h5 := Rat.mul_pos (a := 1 - lam m (a :: h)) (by grind)
      (ih (hw.mono (by simp)) (fun x hh => hk x (List.mem_cons_of_mem _ hh)))
    unfold jm; grind

theorem jm_sum {m : LM} (r : Reach m) (V : List Word) (hV : V.Nodup) (hVk : ∀ x, x ∈ V ↔ m.existSymbol x = true)
    (h : List Word) (hw : WOk m h.length) (hk : ∀ x ∈ h, m.existSymbol x = true) :
    0 ≤ sumBy (fun w => jm m V.length w h) V ∧ sumBy (fun w => jm m V.length w h) V ≤ 1 ∧
      ((∀ g, g <:+ h → m.cHistStr g ≠ 0) → sumBy (fun w => jm m V.length w h) V = 1) := by
  have hpos : (V.length : Rat) ≠ 0 := by
    have : bosStr ∈ V := (hVk _).2 r.std.1
    have : 0 < V.length := List.length_pos_iff.2 (fun hh => by rw [hh] at this; cases this)
    have := Rat.natCast_pos.2 this
    grind
  induction h with
  | nil =>
    obtain ⟨_, h1, h2, _⟩ := weight_lam hw hk
    have hs := (freq_spec r [] V hV (fun x hx => (hVk x).2 hx)).2
    have he : sumBy (fun w => jm m V.length w []) V =
        lam m [] * (if m.cHistStr [] = 0 then 0 else 1) + (1 - lam m []) := by
      simp only [jm]
      rw [sumBy_add, sumBy_mul, hs, sumBy_const]
      congr 1
      rw [Rat.div_def, Rat.one_mul]
      have := Rat.mul_inv_cancel _ hpos
      grind
    rw [he]
    refine ⟨?_, ?_, ?_⟩
    · split <;> grind
    · split <;> grind
    · intro hg; rw [if_neg (hg [] (List.suffix_refl _))]; grind
  | cons a h ih =>
    obtain ⟨_, h1, h2, _⟩ := weight_lam hw hk
    obtain ⟨i1, i2, i3⟩ := ih (hw.mono (by simp)) (fun x hh => hk x (List.mem_cons_of_mem _ hh))
    have hs := (freq_spec r (a :: h) V hV (fun x hx => (hVk x).2 hx)).2
    have he : sumBy (fun w => jm m V.length w (a :: h)) V =
        lam m (a :: h) * (if m.cHistStr (a :: h) = 0 then 0 else 1) +
          (1 - lam m (a :: h)) * sumBy (fun w => jm m V.length w h) V := by
      simp only [jm]
      rw [sumBy_add, sumBy_mul, hs, sumBy_mul]
    rw [he]
    have h3 := Rat.mul_nonneg (a := 1 - lam m (a :: h)) (by grind) i1
    have h4 := Rat.mul_nonneg (a := 1 - lam m (a :: h)) (b := 1 - sumBy (fun w => jm m V.length w h) V) (by grind) (by grind)
    refine ⟨?_, ?_, ?_⟩
    · split <;> grind
    · split <;> grind
    · intro hg
      rw [if_neg (hg _ (List.suffix_refl _)), i3 (fun g hg' => hg g (hg'.trans (List.suffix_cons a h)))]; grind

theorem bosId_eq {m : LM} : m.bosId = (m.enc.code bosStr).2 := rfl

theorem dropBos_codes {m : LM} (r : Reach m) (h : List Word) (hk : ∀ x ∈ h, m.existSymbol x = true) :
    dropBos m.bosId (m.enc.codes h).2 = (m.enc.codes (strip h)).2 := by
  induction h with
  | nil => rfl
  | cons a h ih =>
    cases h with
    | nil => rfl
    | cons b h =>
      have ih := ih (fun x hh => hk x (List.mem_cons_of_mem _ hh))
      have key : ∀ x, x ∈ a :: b :: h → ((m.enc.code x).2 = m.bosId ↔ x = bosStr) := by
        intro x hx
        constructor
        · intro hh; exact code_inj r.ok.enc (hk x hx) r.std.1 hh
        · intro hh; subst hh; rfl
      rw [codes_cons, codes_cons] at *
      unfold dropBos strip
      by_cases hc : a = bosStr ∧ b = bosStr
      · rw [if_pos hc, if_pos ⟨(key a (by simp)).2 hc.1, (key b (by simp)).2 hc.2⟩]
        exact ih
      · rw [if_neg hc, if_neg]
        · rfl
        · rintro ⟨h1, h2⟩
          exact hc ⟨(key a (by simp)).1 h1, (key b (by simp)).1 h2⟩

theorem strip_suffix (h : List Word) : strip h <:+ h := by
  induction h with
  | nil => exact List.suffix_refl _
  | cons a h ih =>
    cases h with
    | nil => exact List.suffix_refl _
    | cons b h =>
      unfold strip
      split
      · exact ih.trans (List.suffix_cons _ _)
      · exact List.suffix_refl _

theorem strip_short (h : List Word) (hl : h.length < 2) : strip h = h := by
  match h with
  | [] => rfl
  | [a] => rfl
  | a :: b :: h => simp at hl; omega

theorem prob_jm {m : LM} (r : Reach m) {w : Word} {h : List Word} (hw : WOk m h.length)
    (hk : ∀ x ∈ h, m.existSymbol x = true) (hx : m.existSymbol w = true) :
    prob m w h = some (jm m m.vocabSize w (strip h)) := by
  have hs := strip_suffix h
  have hk' : ∀ x ∈ strip h, m.existSymbol x = true := fun x hh => hk x (hs.subset hh)
  unfold prob LM.p
  rw [codes_length]
  split
  · rw [dropBos_codes r h hk]
    exact pRec_jm (hw.mono hs.length_le) hk' hx
  · rename_i hl
    have := strip_short h (by omega)
    rw [this]
    exact pRec_jm hw hk hx

theorem hist_cons_le (ops : List Op) (ht : ∀ op ∈ ops, Trained op) (a : Word) (h : List Word) :
    (run ops).cHistStr (a :: h) ≤ (run ops).cHistStr h := (C98_suffix ops ht a h).2

theorem hist_nonneg {m : LM} (r : Reach m) (h : List Word) : 0 ≤ m.cHistStr h := by
  rw [r.hist h _ r.ok.enc.dist (fun x hx => (mem_vocab m x).2 hx)]
  exact sumBy_nonneg (fun w _ => r.nonneg w h)

/-! ### C99 -/

/-- C99. After any history of calls that adds no negative counts, with weights in [0,1] for every length of history up to
that of `h` (and buckets of positive size, if there are several), and `V` the vocabulary: for a history of known words
the model gives to every known word a probability, namely the interpolation of the relative frequencies after the suffixes
of the history and of the uniform distribution; the probabilities are not negative and their sum over the vocabulary is at
most 1; it is 1 if all suffixes of the history were seen; and all are positive if the weights are below 1. -/
theorem C99_distribution_partial (ops : List Op) (hn : ∀ op ∈ ops, NonNeg op) (h : List Word) (hk : ∀ x ∈ h, Known x ops)
    (hw : WOk (run ops) h.length) (V : List Word) (hV : V.Nodup) (hVk : ∀ x, x ∈ V ↔ Known x ops) :
    ∃ p : Word → Rat, (∀ w ∈ V, prob (run ops) w h = some (p w) ∧ p w = jm (run ops) V.length w (strip h) ∧ 0 ≤ p w) ∧
      (V.map p).sum ≤ 1 ∧
      ((∀ g, g <:+ strip h → (run ops).cHistStr g ≠ 0) → (V.map p).sum = 1) ∧
      ((∀ x ∈ (run ops).weights, x < 1) → ∀ w ∈ V, 0 < p w) := by
  have r := reach_run ops hn
  have hk1 : ∀ x ∈ h, (run ops).existSymbol x = true := fun x hx => (known_run ops x).2 (hk x hx)
  have hVs : ∀ x, x ∈ V ↔ (run ops).existSymbol x = true := fun x => by rw [hVk, known_run]
  have hlen : (run ops).vocabSize = V.length := (C97_vocabulary_partial ops).2.2.2.2.2.2.1 V hV hVk
  have hs := strip_suffix h
  have hk2 : ∀ x ∈ strip h, (run ops).existSymbol x = true := fun x hh => hk1 x (hs.subset hh)
  have hw2 := hw.mono hs.length_le
  obtain ⟨_, s2, s3⟩ := jm_sum r V hV hVs (strip h) hw2 hk2
  refine ⟨fun w => jm (run ops) V.length w (strip h), ?_, s2, s3, ?_⟩
  · intro w hwV
    refine ⟨?_, rfl, jm_nonneg r _ w _ hw2 hk2⟩
    rw [prob_jm r hw hk1 ((hVs w).1 hwV), hlen]
  · intro hlt w hwV
    exact jm_pos r _ (List.length_pos_iff.2 (fun hh => by rw [hh] at hwV; cases hwV)) w _ hw2 hk2 hlt

/-- C99 for models that were trained: every history seen in training gives a distribution over the vocabulary. -/
theorem C99_trained (ops : List Op) (ht : ∀ op ∈ ops, Trained op) (h : List Word) (hk : ∀ x ∈ h, Known x ops)
    (hw : WOk (run ops) h.length) (hseen : (run ops).cHistStr (strip h) ≠ 0)
    (V : List Word) (hV : V.Nodup) (hVk : ∀ x, x ∈ V ↔ Known x ops) :
    ∃ p : Word → Rat, (∀ w ∈ V, prob (run ops) w h = some (p w) ∧ 0 ≤ p w) ∧ (V.map p).sum = 1 := by
  have hn : ∀ op ∈ ops, NonNeg op := by
    intro op ho
    have := ht op ho
    cases op with
    | incr _ _ _ => exact absurd this (fun hh => hh)
    | train _ _ _ => exact this
    | _ => trivial
  have r := reach_run ops hn
  obtain ⟨p, h1, _, h3, _⟩ := C99_distribution_partial ops hn h hk hw V hV hVk
  refine ⟨p, fun w hw => ⟨(h1 w hw).1, (h1 w hw).2.2⟩, h3 ?_⟩
  have key : ∀ t g : List Word, (run ops).cHistStr (t ++ g) ≤ (run ops).cHistStr g := by
    intro t g
    induction t with
    | nil => exact Rat.le_refl
    | cons a t ih => exact Rat.le_trans (hist_cons_le ops ht a (t ++ g)) ih
  rintro g ⟨t, hg⟩
  have h4 := key t g
  rw [hg] at h4
  have h5 := hist_nonneg r (strip h)
  grind

/-- The same for every history of known words that fits the order, with the weights that the model has. -/
def C99_full : Prop :=
  ∀ (ops : List Op) (h V : List Word), (∀ op ∈ ops, Trained op) → (∀ ws nb bs, Op.setWeights ws nb bs ∉ ops) →
    (∀ x ∈ h, Known x ops) → h.length < orderOf ops → V.Nodup → (∀ x, x ∈ V ↔ Known x ops) →
    ∃ p : Word → Rat, (∀ w ∈ V, prob (run ops) w h = some (p w)) ∧ (V.map p).sum = 1

/-- After `setNgramOrder(4)` on a new model, a history of three words reads the fourth of three weights. -/
theorem C99_counterexample : ¬ C99_full := by
  intro hf
  have hk : ∀ x, x ∈ [unkStr, bosStr, eosStr, spStr] ↔ Known x [.setOrder 4] := by intro x; simp [Known]
  obtain ⟨p, h1, _⟩ := hf [.setOrder 4] [unkStr, unkStr, unkStr] [unkStr, bosStr, eosStr, spStr]
    (by intro op ho; simp at ho; subst ho; trivial) (by simp) (fun x hx => (hk x).1 (by simp_all))
    (by decide) (by decide) hk
  have := h1 unkStr (by simp)
  have h2 : prob (run [.setOrder 4]) unkStr [unkStr, unkStr, unkStr] = none := by decide +kernel
  rw [h2] at this; cases this

/-- Inside the bounds of the weights, a history of known words that was not seen gives a sum below 1: in a new model the
sum over the vocabulary after `<unk>` is 1/4. -/
theorem C99_counterexample_sum : ∃ (V : List Word), V.Nodup ∧ (∀ x, x ∈ V ↔ Known x []) ∧ Known unkStr [] ∧
    (V.map (fun w => (prob (run []) w [unkStr]).getD 0)).sum = 1 / 4 := by
  refine ⟨[unkStr, bosStr, eosStr, spStr], by decide, by intro x; simp [Known], Or.inl rfl, by decide +kernel⟩

/-- Non-vacuity of C99: a trained model, with a seen history, and its distribution after "a". -/
example : WOk (run [.train [['a'], ['b'], ['a'], ['c']] 1 0]) 1 ∧
    (run [.train [['a'], ['b'], ['a'], ['c']] 1 0]).cHistStr [['a']] = 2 ∧
    prob (run [.train [['a'], ['b'], ['a'], ['c']] 1 0]) ['b'] [['a']] = some (55/168) := by
  refine ⟨⟨Or.inl (by decide +kernel), by decide +kernel, by decide +kernel⟩, by decide +kernel, by decide +kernel⟩

end Thot.LangModel
