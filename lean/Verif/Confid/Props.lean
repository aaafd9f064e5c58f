import Verif.Confid.Model
/-!
C266: word confidences.
-/
namespace Thot.Confid

open Thot

/-! ### Specification -/

/-- An upper-case initial that is not followed by an upper-case letter. -/
def Capitalized (w : W) : Prop := (∃ c r, w = c :: r ∧ 'A' ≤ c ∧ c ≤ 'Z') ∧ ¬ ∃ c d r, w = c :: d :: r ∧ 'A' ≤ d ∧ d ≤ 'Z'

/-- The word with the initial in lower case. -/
def decap (w : W) : W := (w.take 1).map Char.toLower ++ w.drop 1

/-- `x` is the probability of the target word given the source word, or of one of them with the initial in lower case. -/
def PairProb (sc tc : W → Nat) (p : Nat → Nat → Rat) (t s : W) (x : Rat) : Prop :=
  x = p (sc s) (tc t) ∨ (Capitalized t ∧ x = p (sc s) (tc (decap t))) ∨ (Capitalized s ∧ x = p (sc (decap s)) (tc t))

/-- The target word is a number other than zero that is in the source. -/
def NumberInSource (source : List W) (t : W) : Prop := t ∈ source ∧ Vocab.atoi t ≠ some 0

/-! ### Proof -/

theorem up_spec (a b : Rat) : (up a b = a ∨ up a b = b) ∧ a ≤ up a b ∧ b ≤ up a b := by
  unfold up
  split
  · next h => exact ⟨Or.inr rfl, Rat.le_of_lt h, Rat.le_refl⟩
  · next h => exact ⟨Or.inl rfl, Rat.le_refl, Rat.not_lt.1 h⟩

theorem upper_iff (c : Char) : isUpper c = true ↔ 'A' ≤ c ∧ c ≤ 'Z' := by
  unfold isUpper; exact decide_eq_true_iff

theorem capital_iff (w : W) : capital w = true ↔ Capitalized w := by
  unfold capital Capitalized
  match w with
  | [] =>
    constructor
    · intro h; exact absurd h (by decide)
    · rintro ⟨⟨c, r, h, _⟩, _⟩; cases h
  | [c] =>
    rw [Bool.and_eq_true, List.getD_cons_zero, upper_iff]
    constructor
    · rintro ⟨h, _⟩
      refine ⟨⟨c, [], rfl, h⟩, ?_⟩
      rintro ⟨c, d, r, h, _⟩
      cases h
    · rintro ⟨⟨c', r, h, h'⟩, _⟩
      cases h
      exact ⟨h', rfl⟩
  | c :: d :: r =>
    rw [Bool.and_eq_true, List.getD_cons_zero, List.getD_cons_succ, List.getD_cons_zero, upper_iff]
    constructor
    · rintro ⟨h, h2⟩
      refine ⟨⟨c, _, rfl, h⟩, ?_⟩
      rintro ⟨c', d', r', e, h'⟩
      cases e
      rw [(upper_iff d).2 h'] at h2
      cases h2
    · rintro ⟨⟨c', r', e, h'⟩, hn⟩
      cases e
      refine ⟨h', ?_⟩
      cases hd : isUpper d with
      | false => rfl
      | true => exact absurd ⟨c, d, r, rfl, (upper_iff d).1 hd⟩ hn

theorem lowerFirst_eq (w : W) : lowerFirst w = decap w := by
  match w with
  | [] => rfl
  | c :: r =>
    show toLow c :: r = decap (c :: r)
    unfold decap
    rw [List.take_succ_cons, List.take_zero, List.map_cons, List.map_nil, List.drop_succ_cons, List.drop_zero]
    have : toLow c = c.toLower := by
      unfold toLow
      by_cases h : isUpper c = true
      · rw [if_pos h]
        obtain ⟨h1, h2⟩ := (upper_iff c).1 h
        unfold Char.toLower
        have h1' : 65 ≤ c.toNat := h1
        have h2' : c.toNat ≤ 90 := h2
        have hc : c = Char.ofNat c.toNat := (Char.ofNat_toNat c).symm
        rw [hc]
        generalize c.toNat = n at h1' h2'
        have : ∀ n : Fin 91, 65 ≤ n.val → Char.ofNat ((Char.ofNat n.val).toNat + 32) = (Char.ofNat n.val).toLower := by decide +kernel
        have := this ⟨n, by omega⟩ h1'
        unfold Char.toLower at this
        exact this
      · rw [if_neg h]
        unfold Char.toLower
        rw [dif_neg]
        intro hc
        apply h
        rw [upper_iff]
        exact ⟨hc.1, hc.2⟩
    rw [this]; rfl

theorem afterTrg_spec (sc tc : W → Nat) (p : Nat → Nat → Rat) (t s : W) :
    (afterTrg sc tc p t s = p (sc s) (tc t) ∨ (Capitalized t ∧ afterTrg sc tc p t s = p (sc s) (tc (decap t)))) ∧
    p (sc s) (tc t) ≤ afterTrg sc tc p t s ∧ (Capitalized t → p (sc s) (tc (decap t)) ≤ afterTrg sc tc p t s) := by
  unfold afterTrg
  rw [lowerFirst_eq]
  by_cases h : capital t = true
  · rw [if_pos h]
    obtain ⟨h1, h2, h3⟩ := up_spec (p (sc s) (tc t)) (p (sc s) (tc (decap t)))
    exact ⟨h1.imp id (⟨(capital_iff t).1 h, ·⟩), h2, fun _ => h3⟩
  · rw [if_neg h]
    exact ⟨Or.inl rfl, Rat.le_refl, fun hc => absurd ((capital_iff t).2 hc) h⟩

theorem afterSrc_spec (sc tc : W → Nat) (p : Nat → Nat → Rat) (t s : W) :
    PairProb sc tc p t s (afterSrc sc tc p t s) ∧ ∀ x, PairProb sc tc p t s x → x ≤ afterSrc sc tc p t s := by
  obtain ⟨k1, k2, k3⟩ := afterTrg_spec sc tc p t s
  unfold afterSrc
  rw [lowerFirst_eq]
  by_cases h : capital s = true
  · rw [if_pos h]
    obtain ⟨h1, h2, h3⟩ := up_spec (afterTrg sc tc p t s) (p (sc (decap s)) (tc t))
    have hs := (capital_iff s).1 h
    constructor
    · rcases h1 with h1 | h1
      · rw [h1]
        rcases k1 with k1 | k1
        · exact Or.inl k1
        · exact Or.inr (Or.inl k1)
      · rw [h1]; exact Or.inr (Or.inr ⟨hs, rfl⟩)
    · rintro x (rfl | ⟨hc, rfl⟩ | ⟨_, rfl⟩)
      · exact Rat.le_trans k2 h2
      · exact Rat.le_trans (k3 hc) h2
      · exact h3
  · rw [if_neg h]
    constructor
    · rcases k1 with k1 | k1
      · exact Or.inl k1
      · exact Or.inr (Or.inl k1)
    · rintro x (rfl | ⟨hc, rfl⟩ | ⟨hc, _⟩)
      · exact k2
      · exact k3 hc
      · exact absurd ((capital_iff s).2 hc) h

theorem fold_up (f : W → Rat) (source : List W) : ∀ c : Rat,
    (source.foldl (fun c s => up c (f s)) c = c ∨ ∃ s ∈ source, source.foldl (fun c s => up c (f s)) c = f s) ∧
    c ≤ source.foldl (fun c s => up c (f s)) c ∧ ∀ s ∈ source, f s ≤ source.foldl (fun c s => up c (f s)) c := by
  induction source with
  | nil => intro c; exact ⟨Or.inl rfl, Rat.le_refl, by simp⟩
  | cons s source ih =>
    intro c
    rw [List.foldl_cons]
    obtain ⟨h1, h2, h3⟩ := ih (up c (f s))
    obtain ⟨k1, k2, k3⟩ := up_spec c (f s)
    refine ⟨?_, Rat.le_trans k2 h2, ?_⟩
    · rcases h1 with h1 | ⟨s', hs', h1⟩
      · rcases k1 with k1 | k1
        · exact Or.inl (h1.trans k1)
        · exact Or.inr ⟨s, List.mem_cons_self, h1.trans k1⟩
      · exact Or.inr ⟨s', List.mem_cons_of_mem _ hs', h1⟩
    · intro s' hs'
      rcases List.mem_cons.1 hs' with rfl | hs'
      · exact Rat.le_trans k3 h2
      · exact h3 s' hs'

theorem copied_iff (t s : W) : copied t s = true ↔ Vocab.atoi t ≠ some 0 ∧ t = s := by
  unfold copied; exact decide_eq_true_iff

theorem fold_add (cs : List Rat) : ∀ a : Rat, cs.foldl (· + ·) a = a + cs.foldl (· + ·) 0 := by
  induction cs with
  | nil => intro a; exact (Rat.add_zero a).symm
  | cons c cs ih =>
    intro a
    rw [List.foldl_cons, List.foldl_cons, ih (a + c), ih (0 + c)]
    grind

theorem fold_bounds (cs : List Rat) (h : ∀ c ∈ cs, 0 ≤ c ∧ c ≤ 1) : 0 ≤ cs.foldl (· + ·) 0 ∧ cs.foldl (· + ·) 0 ≤ (cs.length : Rat) := by
  induction cs with
  | nil => simp
  | cons c cs ih =>
    have h1 := ih fun x hx => h x (List.mem_cons_of_mem _ hx)
    have h2 := h c List.mem_cons_self
    rw [List.foldl_cons, fold_add, List.length_cons]
    have : ((cs.length + 1 : Nat) : Rat) = (cs.length : Rat) + 1 := by norm_cast
    rw [this]
    constructor <;> grind

/-- Confidences of the words of a translation. A validated word has confidence one; so has a number other than zero that is in the source. Any
other word has the largest of its probabilities given the NULL word and the source words, where a capitalized word also counts in lower case. All
confidences, and their average for the sentence, are between zero and one. -/
theorem C266_confidences (sc tc : W → Nat) (p : Nat → Nat → Rat) (hp : ∀ a b, 0 ≤ p a b ∧ p a b ≤ 1) (source target : List W)
    (validated : List Bool) (hlen : validated.length = target.length) (hat : ∀ t ∈ target, (Vocab.atoi t).isSome) :
    ∃ cs : List Rat, wordConfs sc tc p source target validated = some cs ∧ cs.length = target.length ∧
      (∀ (i : Nat) t v c, target[i]? = some t → validated[i]? = some v → cs[i]? = some c →
        (v = true → c = 1) ∧ (v = false → NumberInSource source t → c = 1) ∧
        (v = false → ¬ NumberInSource source t →
          (c = p 0 (tc t) ∨ ∃ s ∈ source, PairProb sc tc p t s c) ∧
          p 0 (tc t) ≤ c ∧ ∀ s ∈ source, ∀ x, PairProb sc tc p t s x → x ≤ c) ∧ 0 ≤ c ∧ c ≤ 1) ∧
      (target ≠ [] → ∃ x, sentConf sc tc p source target validated = some x ∧ x * (target.length : Rat) = cs.foldl (· + ·) 0 ∧ 0 ≤ x ∧ x ≤ 1) := by
  have hw : wordConfs sc tc p source target validated = some (List.zipWith (wordConf sc tc p source) target validated) := by
    unfold wordConfs
    rw [if_neg (by omega), if_neg]
    rintro ⟨_, h⟩
    obtain ⟨t, ht, h⟩ := List.any_eq_true.1 h
    have := hat t ht
    cases ha : Vocab.atoi t with
    | none => rw [ha] at this; cases this
    | some v => rw [ha] at h; cases h
  have hl : (List.zipWith (wordConf sc tc p source) target validated).length = target.length := by
    rw [List.length_zipWith]; omega
  have hone : (0 : Rat) ≤ 1 := by decide
  have hword : ∀ t v, (v = true → wordConf sc tc p source t v = 1) ∧ (v = false → NumberInSource source t → wordConf sc tc p source t v = 1) ∧
        (v = false → ¬ NumberInSource source t →
          (wordConf sc tc p source t v = p 0 (tc t) ∨ ∃ s ∈ source, PairProb sc tc p t s (wordConf sc tc p source t v)) ∧
          p 0 (tc t) ≤ wordConf sc tc p source t v ∧ ∀ s ∈ source, ∀ x, PairProb sc tc p t s x → x ≤ wordConf sc tc p source t v) ∧
        0 ≤ wordConf sc tc p source t v ∧ wordConf sc tc p source t v ≤ 1 := by
    intro t v
    have hpair : ∀ s, 0 ≤ pairConf sc tc p t s ∧ pairConf sc tc p t s ≤ 1 := by
      intro s
      unfold pairConf
      split
      · exact ⟨hone, Rat.le_refl⟩
      · rcases (afterSrc_spec sc tc p t s).1 with h | ⟨_, h⟩ | ⟨_, h⟩ <;> rw [h] <;> exact hp _ _
    cases v with
    | true => exact ⟨fun _ => rfl, fun h => (by cases h), fun h => (by cases h), hone, Rat.le_refl⟩
    | false =>
      have e : wordConf sc tc p source t false = source.foldl (fun c s => up c (pairConf sc tc p t s)) (p 0 (tc t)) := rfl
      rw [e]
      obtain ⟨h1, h2, h3⟩ := fold_up (pairConf sc tc p t) source (p 0 (tc t))
      generalize source.foldl (fun c s => up c (pairConf sc tc p t s)) (p 0 (tc t)) = c at h1 h2 h3 ⊢
      have hb : 0 ≤ c ∧ c ≤ 1 := by
        rcases h1 with rfl | ⟨s, _, rfl⟩
        · exact hp _ _
        · exact hpair s
      refine ⟨fun h => (by cases h), fun _ hn => ?_, fun _ hn => ?_, hb⟩
      · have := h3 t hn.1
        unfold pairConf at this
        rw [if_pos ((copied_iff t t).2 ⟨hn.2, rfl⟩)] at this
        exact Rat.le_antisymm hb.2 this
      · have hnc : ∀ s ∈ source, pairConf sc tc p t s = afterSrc sc tc p t s := by
          intro s hs
          unfold pairConf
          rw [if_neg]
          intro hc
          obtain ⟨ha, rfl⟩ := (copied_iff t s).1 hc
          exact hn ⟨hs, ha⟩
        refine ⟨?_, h2, ?_⟩
        · rcases h1 with h1 | ⟨s, hs, h1⟩
          · exact Or.inl h1
          · refine Or.inr ⟨s, hs, ?_⟩
            rw [h1, hnc s hs]
            exact (afterSrc_spec sc tc p t s).1
        · intro s hs x hx
          refine Rat.le_trans ((afterSrc_spec sc tc p t s).2 x hx) ?_
          rw [← hnc s hs]; exact h3 s hs
  refine ⟨_, hw, hl, ?_, ?_⟩
  · intro i t v c ht hv hc
    rw [List.getElem?_zipWith, ht, hv] at hc
    cases hc
    exact hword t v
  · intro hne
    have hpos : 0 < target.length := List.length_pos_iff.2 hne
    have hall : ∀ c ∈ List.zipWith (wordConf sc tc p source) target validated, 0 ≤ c ∧ c ≤ 1 := by
      intro c hc
      obtain ⟨i, hi⟩ := List.mem_iff_getElem?.1 hc
      rw [List.getElem?_zipWith] at hi
      split at hi
      · cases hi; exact (hword _ _).2.2.2
      · cases hi
    obtain ⟨b1, b2⟩ := fold_bounds _ hall
    rw [hl] at b2
    unfold sentConf
    rw [hw]
    simp only [hl]
    rw [if_neg (by omega)]
    generalize (List.zipWith (wordConf sc tc p source) target validated).foldl (· + ·) 0 = S at b1 b2
    have hq : (0 : Rat) < (target.length : Rat) := by exact_mod_cast hpos
    have hmul : S / (target.length : Rat) * (target.length : Rat) = S := Rat.div_mul_cancel (fun h => by rw [h] at hq; exact absurd hq (by decide))
    refine ⟨_, rfl, hmul, ?_, ?_⟩
    · refine Rat.not_lt.1 fun h => ?_
      have h2 := Rat.mul_lt_mul_of_pos_right h hq
      rw [hmul, Rat.zero_mul] at h2
      exact Rat.not_lt.2 b1 h2
    · refine Rat.not_lt.1 fun h => ?_
      have h2 := Rat.mul_lt_mul_of_pos_right h hq
      rw [hmul, Rat.one_mul] at h2
      exact Rat.not_lt.2 b2 h2

/-- A capitalized word, a number and a validated word. -/
example : wordConfs (fun w => w.length) (fun w => w.length + (if w = "the".toList then 10 else 0))
    (fun a b => if a = 2 ∧ b = 13 then 3/4 else 1/8) ["la".toList, "12".toList, "x".toList] ["The".toList, "12".toList, "y".toList, "z".toList]
    [false, false, true, false] = some [3/4, 1, 1, 1/8] := by decide +kernel

end Thot.Confid
