import Verif.PhrTrain.PrintLoad
/-! C161: when every count is large enough to be printed, a trained table survives printing and loading unchanged. -/
namespace Thot.PhrTrain
open AMap Thot.Vocab Thot.LevelDb
open Thot.SentHandler (joinWords Word fields_join)

theorem rsum_cons (x : Rat) (l : List Rat) : rsum (x :: l) = x + rsum l := rfl

theorem stotal_cons (sel : SPhrase → SPhrase → Bool) (x : SPhrase × SPhrase × Rat) (l : List (SPhrase × SPhrase × Rat)) :
    stotal sel (x :: l) = (if sel x.1 x.2.1 then x.2.2 else 0) + stotal sel l := rfl

theorem stotal_nonneg (sel : SPhrase → SPhrase → Bool) (l : List (SPhrase × SPhrase × Rat)) (h : ∀ x ∈ l, 0 < x.2.2) :
    0 ≤ stotal sel l := by
  induction l with
  | nil => exact Rat.le_refl
  | cons x l ih =>
    rw [stotal_cons]
    have h1 := ih fun y hy => h y (List.mem_cons_of_mem _ hy)
    have h2 := h x List.mem_cons_self
    split <;> grind

theorem stotal_mono (a b : SPhrase → SPhrase → Bool) (hab : ∀ p q, a p q = true → b p q = true) (l : List (SPhrase × SPhrase × Rat))
    (h : ∀ x ∈ l, 0 < x.2.2) : stotal a l ≤ stotal b l := by
  induction l with
  | nil => exact Rat.le_refl
  | cons x l ih =>
    rw [stotal_cons, stotal_cons]
    have h1 := ih fun y hy => h y (List.mem_cons_of_mem _ hy)
    have h2 := h x List.mem_cons_self
    have h3 := hab x.1 x.2.1
    by_cases ha : a x.1 x.2.1 = true
    · rw [if_pos ha, if_pos (h3 ha)]; grind
    · rw [if_neg ha]; split <;> grind

theorem stotal_pos (sel : SPhrase → SPhrase → Bool) (l : List (SPhrase × SPhrase × Rat)) (h : ∀ x ∈ l, 0 < x.2.2)
    (he : ∃ x ∈ l, sel x.1 x.2.1 = true) : 0 < stotal sel l := by
  induction l with
  | nil => obtain ⟨x, hx, _⟩ := he; cases hx
  | cons x l ih =>
    rw [stotal_cons]
    have h0 := stotal_nonneg sel l fun y hy => h y (List.mem_cons_of_mem _ hy)
    have h2 := h x List.mem_cons_self
    by_cases hx : sel x.1 x.2.1 = true
    · rw [if_pos hx]; grind
    · rw [if_neg hx]
      obtain ⟨y, hy, hs⟩ := he
      rcases List.mem_cons.1 hy with rfl | hy
      · exact absurd hs hx
      · have := ih (fun y hy => h y (List.mem_cons_of_mem _ hy)) ⟨y, hy, hs⟩
        grind

theorem stotal_zero (sel : SPhrase → SPhrase → Bool) (l : List (SPhrase × SPhrase × Rat)) (h : ∀ x ∈ l, sel x.1 x.2.1 = false) :
    stotal sel l = 0 := by
  induction l with
  | nil => rfl
  | cons x l ih => rw [stotal_cons, h x List.mem_cons_self, ih fun y hy => h y (List.mem_cons_of_mem _ hy)]; exact Rat.zero_add _

/-- The total of a target phrase is the sum of the totals of its pairs. -/
theorem stotal_split (q : SPhrase) (ps : List SPhrase) (hn : ps.Nodup) (l : List (SPhrase × SPhrase × Rat))
    (h : ∀ x ∈ l, x.2.1 = q → x.1 ∈ ps) :
    stotal (fun _ b => decide (b = q)) l = rsum (ps.map fun p => stotal (fun a b => decide (a = p ∧ b = q)) l) := by
  induction l with
  | nil => exact (rsum_zero ps).symm
  | cons x l ih =>
    simp only [stotal_cons]
    rw [rsum_add, ih fun y hy => h y (List.mem_cons_of_mem _ hy)]
    congr 1
    by_cases hq : x.2.1 = q
    · simp only [hq, decide_true, if_true, and_true, decide_eq_true_eq]
      exact (rsum_single ps x.1 x.2.2 hn (h x List.mem_cons_self hq)).symm
    · simp only [hq, decide_false, and_false, Bool.false_eq_true, if_false]
      exact (rsum_zero ps).symm

/-- **C161 (round trip).** Take any nonempty sequence of positive increments of writable phrase pairs (for instance the ones of a
training, C159) in which every pair that occurs gets a total of at least `EPSILON`, and a number format that reads back
every count that is printed. Whatever the iteration order of the table, it can be printed, the file can be loaded in any
model, with success, and the loaded model gives every phrase pair, every source phrase and every target phrase
exactly the count it had, the one of the increments; nothing of the table that the model had before is left. -/
theorem C161_round_trip (fmt : Rat → Str) (atof : Str → Rat) (hf : ∀ x, Word (fmt x)) (l : List (SPhrase × SPhrase × Rat))
    (hl : Storable (sincrs l)) (hne : l ≠ []) (hpos : ∀ x ∈ l, 0 < x.2.2)
    (hbig : ∀ x ∈ l, 100 / 8388608 ≤ stotal (fun a b => decide (a = x.1 ∧ b = x.2.1)) l)
    (hp1 : ∀ x ∈ l, let c := stotal (fun a b => decide (a = x.1 ∧ b = x.2.1)) l; atof (fmt c) = c)
    (hp2 : ∀ x ∈ l, let c := stotal (fun a _ => decide (a = x.1)) l; atof (fmt c) = c)
    (n1 : size (srun clear (sincrs l)).sv ≤ 254 ^ 3) (n2 : size (srun clear (sincrs l)).tv ≤ 254 ^ 3)
    (m : HatTable.Trie) (hm : m.Perm (srun clear (sincrs l)).m) (pre : List SOp) :
    ∃ file st, printTTable fmt { srun clear (sincrs l) with m := m } = some file ∧
      loadTTable atof (srun clear pre) file = (st, true) ∧
      (size st.sv ≤ 254 ^ 3 → size st.tv ≤ 254 ^ 3 → ∀ p q, Clean p → Clean q → q ≠ [] →
        cHSrcHTrg st p q = stotal (fun a b => decide (a = p ∧ b = q)) l ∧
        cHSrc st p = stotal (fun a _ => decide (a = p)) l ∧
        cHTrg st q = stotal (fun _ b => decide (b = q)) l ∧
        cHSrcHTrg st p q = cHSrcHTrg (srun clear (sincrs l)) p q ∧
        cHSrc st p = cHSrc (srun clear (sincrs l)) p ∧
        cHTrg st q = cHTrg (srun clear (sincrs l)) q) := by
  have hkept : ∀ p q, Kept (sref (sincrs l)) p q ↔ ∃ x ∈ l, x.1 = p ∧ x.2.1 = q := by
    intro p q
    obtain ⟨r1, _, r3⟩ := sref_sincrs l p q
    constructor
    · rintro ⟨cs, c, _, h2, _, _⟩
      rw [r3] at h2
      split at h2
      · assumption
      · cases h2
    · rintro ⟨x, hx, rfl, rfl⟩
      rw [if_pos ⟨x, hx, rfl⟩] at r1
      rw [if_pos ⟨x, hx, rfl, rfl⟩] at r3
      have h1 := hbig x hx
      have h2 := stotal_mono (fun a b => decide (a = x.1 ∧ b = x.2.1)) (fun a _ => decide (a = x.1)) (by
        intro a b hab
        rw [decide_eq_true_eq] at hab
        exact decide_eq_true hab.1) l hpos
      refine ⟨_, _, r1, r3, ?_, ?_⟩ <;> unfold rabs <;> split <;> grind
  have hz : ∀ q c, (sref (sincrs l)).t q = some c → c ≠ 0 := by
    intro q c h
    rw [(sref_sincrs l [] q).2.1] at h
    split at h
    · next he =>
      injection h with h
      obtain ⟨x, hx, hq⟩ := he
      have := stotal_pos (fun _ b => decide (b = q)) l hpos ⟨x, hx, decide_eq_true hq⟩
      rw [← h]; grind
    · cases h
  have hne' : sincrs l ≠ [] := fun hc => hne (List.map_eq_nil_iff.1 hc)
  obtain ⟨file, st, h1, h2, h3⟩ := C161_print_load_partial fmt atof hf (sincrs l) pre hl hne' hz n1 n2 m hm
  refine ⟨file, st, h1, h2, ?_⟩
  intro k1 k2 p q hp hq hqn
  obtain ⟨a1, a2, a3, a4, ps, a5, a6, a7⟩ := h3 k1 k2 p q hp hq hqn
  have hpair : ∀ p q, Kept (sref (sincrs l)) p q →
      atof (fmt (((sref (sincrs l)).st p q).getD 0)) = stotal (fun a b => decide (a = p ∧ b = q)) l := by
    intro p q hk
    have he := (hkept p q).1 hk
    rw [(sref_sincrs l p q).2.2, if_pos he, Option.getD_some]
    obtain ⟨x, hx, rfl, rfl⟩ := he
    exact hp1 x hx
  have e1 : cHSrcHTrg st p q = stotal (fun a b => decide (a = p ∧ b = q)) l := by
    by_cases hk : Kept (sref (sincrs l)) p q
    · rw [a1 hk, hpair p q hk]
    · rw [a2 hk, stotal_zero]
      intro x hx
      rw [decide_eq_false_iff_not]
      exact fun hc => hk ((hkept p q).2 ⟨x, hx, hc⟩)
  have e2 : cHSrc st p = stotal (fun a _ => decide (a = p)) l := by
    by_cases hk : ∃ q', Kept (sref (sincrs l)) p q'
    · rw [a3 hk]
      obtain ⟨q', hk⟩ := hk
      obtain ⟨x, hx, rfl, _⟩ := (hkept p q').1 hk
      rw [(sref_sincrs l x.1 q').1, if_pos ⟨x, hx, rfl⟩]
      exact hp2 x hx
    · rw [a4 hk, stotal_zero]
      intro x hx
      rw [decide_eq_false_iff_not]
      exact fun hc => hk ⟨x.2.1, (hkept _ _).2 ⟨x, hx, hc, rfl⟩⟩
  have e3 : cHTrg st q = stotal (fun _ b => decide (b = q)) l := by
    rw [a7, stotal_split q ps a5 l (fun x hx he => (a6 _).2 ((hkept _ _).2 ⟨x, hx, rfl, he⟩))]
    congr 1
    apply List.map_congr_left
    intro p' hp'
    exact hpair p' q ((a6 p').1 hp')
  have hu : ∀ o ∈ sincrs l, Clean o.src ∧ Clean o.trg ∧ o.trg ≠ [] := fun o hm =>
    ⟨clean_of (hl o hm).1, clean_of (hl o hm).2.1, (hl o hm).2.2.2⟩
  obtain ⟨c1, c2, c3⟩ := C159_strings (sincrs l) hu n1 n2 p q hp hq hqn
  obtain ⟨r1, r2, r3⟩ := sref_sincrs l p q
  have gd : ∀ (P : Prop) [Decidable P] (c : Rat), (¬ P → c = 0) → (if P then some c else none).getD 0 = c := by
    intro P _ c h
    split
    · rfl
    · next hn => exact (h hn).symm
  rw [r1, gd] at c1
  rw [r2, gd] at c2
  rw [r3, gd] at c3
  · exact ⟨e1, e2, e3, e1.trans c3.symm, e2.trans c1.symm, e3.trans c2.symm⟩
  · exact fun hn => stotal_zero _ _ fun x hx => decide_eq_false fun hc => hn ⟨x, hx, hc⟩
  · exact fun hn => stotal_zero _ _ fun x hx => decide_eq_false fun hc => hn ⟨x, hx, hc⟩
  · exact fun hn => stotal_zero _ _ fun x hx => decide_eq_false fun hc => hn ⟨x, hx, hc⟩

/-! ### Examples -/

/-- A format for the examples: a count is written as its numerator in unary, for the denominators 1 and 10^6. -/
def exFmt (x : Rat) : Str := if x.den = 1 then 'n' :: List.replicate x.num.toNat 'I' else ['u']
def exAtof : Str → Rat
  | ['u'] => 1 / 1000000
  | l => (l.length - 1 : Nat)

theorem exFmt_word (x : Rat) : Word (exFmt x) := by
  unfold exFmt
  split
  · refine ⟨by simp, ?_⟩
    intro c hc
    rcases List.mem_cons.1 hc with rfl | hc
    · decide
    · rw [(List.mem_replicate.1 hc).2]; decide
  · exact ⟨by simp, by decide⟩

def exIncrs : List (SPhrase × SPhrase × Rat) :=
  [(["la".toList, "casa".toList], ["the".toList, "house".toList], 1), (["casa".toList], ["house".toList], 2),
   (["casa".toList], ["home".toList], 1), (["casa".toList], ["house".toList], 1)]

instance (w : Str) : Decidable (FWord w) := by unfold FWord Word; infer_instance

instance (os : List SOp) : Decidable (Storable os) := by unfold Storable; infer_instance

/-- The hypotheses of `C161_round_trip` hold of a concrete table, with every order of it. -/
example : Storable (sincrs exIncrs) ∧ exIncrs ≠ [] ∧ (∀ x ∈ exIncrs, 0 < x.2.2) ∧
    (∀ x ∈ exIncrs, 100 / 8388608 ≤ stotal (fun a b => decide (a = x.1 ∧ b = x.2.1)) exIncrs) ∧
    (∀ x ∈ exIncrs, let c := stotal (fun a b => decide (a = x.1 ∧ b = x.2.1)) exIncrs; exAtof (exFmt c) = c) ∧
    (∀ x ∈ exIncrs, let c := stotal (fun a _ => decide (a = x.1)) exIncrs; exAtof (exFmt c) = c) ∧
    size (srun clear (sincrs exIncrs)).sv ≤ 254 ^ 3 ∧ size (srun clear (sincrs exIncrs)).tv ≤ 254 ^ 3 := by decide +kernel

example : (printTTable exFmt (srun clear (sincrs exIncrs))).map (fun f => String.ofList f) =
    some "la casa ||| the house ||| nI nI\ncasa ||| house ||| nIIII nIII\ncasa ||| home ||| nIIII nI\n" := by decide +kernel

example : (printTTable exFmt (srun clear (sincrs exIncrs))).map (fun f =>
    let st := (loadTTable exAtof (srun clear [.incr ["x".toList] ["y".toList] 5]) f).1
    [cHSrcHTrg st ["casa".toList] ["house".toList], cHSrc st ["casa".toList], cHTrg st ["home".toList], cHSrc st ["x".toList]]) =
    some [3, 4, 1, 0] := by decide +kernel

/-! ### The full statement -/

/-- Every recorded pair survives, with the hypotheses of `C161_round_trip` except the one on small counts. -/
def C161_full : Prop :=
  ∀ (fmt : Rat → Str) (atof : Str → Rat), (∀ x, Word (fmt x)) → ∀ (l : List (SPhrase × SPhrase × Rat)),
    Storable (sincrs l) → l ≠ [] → (∀ x ∈ l, 0 < x.2.2) →
    (∀ x ∈ l, let c := stotal (fun a b => decide (a = x.1 ∧ b = x.2.1)) l; atof (fmt c) = c) →
    (∀ x ∈ l, let c := stotal (fun a _ => decide (a = x.1)) l; atof (fmt c) = c) →
    size (srun clear (sincrs l)).sv ≤ 254 ^ 3 → size (srun clear (sincrs l)).tv ≤ 254 ^ 3 →
    ∀ pre file st, printTTable fmt (srun clear (sincrs l)) = some file → loadTTable atof (srun clear pre) file = (st, true) →
      ∀ x ∈ l, cHSrcHTrg st x.1 x.2.1 = cHSrcHTrg (srun clear (sincrs l)) x.1 x.2.1

/-- A pair with count 10^-6 (which `%.8f` writes without loss) is not printed. -/
def exSmall : List (SPhrase × SPhrase × Rat) :=
  [(["a".toList], ["x".toList], 1 / 1000000), (["b".toList], ["x".toList], 1)]

theorem C161_counterexample : ¬ C161_full := by
  intro h
  have h1 := h exFmt exAtof exFmt_word exSmall (by decide +kernel) (by decide) (by decide +kernel) (by decide +kernel) (by decide +kernel)
    (by decide +kernel) (by decide +kernel) [] _ _
    (show printTTable exFmt (srun clear (sincrs exSmall)) = some "b ||| x ||| nI nI\n".toList from by decide +kernel)
    (show loadTTable exAtof (srun clear []) "b ||| x ||| nI nI\n".toList =
      ((loadTTable exAtof (srun clear []) "b ||| x ||| nI nI\n".toList).1, true) from by
        have : (loadTTable exAtof (srun clear []) "b ||| x ||| nI nI\n".toList).2 = true := by decide +kernel
        exact Prod.ext rfl this)
    _ (List.mem_cons_self)
  revert h1
  decide +kernel

end Thot.PhrTrain
