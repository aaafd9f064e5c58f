import Verif.KbMira.Model
import Mathlib.Algebra.Order.Field.Basic
import Mathlib.Tactic.Linarith
import Mathlib.Tactic.Ring
import Mathlib.Tactic.FieldSimp
import Mathlib.Tactic.Positivity
import Mathlib.Tactic.NormNum
/-!
C119 (hope and fear), C120 (the update of the weights), C121 (the weights returned).
-/
namespace Thot.KbMira

variable {τ B : Type}

/-! ### C119 -/

/-- `c` is the first element of `l` with the greatest value of `key`, which is `v` (elements without value are
ignored). -/
def FirstArgmax {β : Type} (key : β → Option Rat) (l : List β) (c : β) (v : Rat) : Prop :=
  ∃ a b, l = a ++ c :: b ∧ key c = some v ∧ (∀ x ∈ a, ∀ u, key x = some u → u < v) ∧
    (∀ x ∈ b, ∀ u, key x = some u → u ≤ v)

theorem FirstArgmax.le {β : Type} {key : β → Option Rat} {l : List β} {c : β} {v : Rat} (h : FirstArgmax key l c v)
    {x : β} (hx : x ∈ l) {u : Rat} (hu : key x = some u) : u ≤ v := by
  obtain ⟨a, b, rfl, hc, h1, h2⟩ := h
  rcases List.mem_append.1 hx with hx | hx
  · exact le_of_lt (h1 x hx u hu)
  · rcases List.mem_cons.1 hx with rfl | hx
    · rw [hc] at hu; cases hu; exact le_refl _
    · exact h2 x hx u hu

theorem FirstArgmax.mem {β : Type} {key : β → Option Rat} {l : List β} {c : β} {v : Rat} (h : FirstArgmax key l c v) :
    c ∈ l ∧ key c = some v := by
  obtain ⟨a, b, rfl, hc, _, _⟩ := h
  exact ⟨by simp, hc⟩

/-- Generic search for the first maximum. -/
def bestStep {β : Type} (key : β → Option Rat) (st : Option (Rat × β)) (c : β) : Option (Rat × β) :=
  match key c with
  | none => st
  | some v => if gt v (st.map Prod.fst) then some (v, c) else st

theorem bestFold_spec {β : Type} (key : β → Option Rat) (l : List β) :
    match l.foldl (bestStep key) none with
    | none => ∀ x ∈ l, key x = none
    | some r => FirstArgmax key l r.2 r.1 := by
  induction l using List.reverseRecOn with
  | nil => simp
  | append_singleton l c ih =>
    rw [List.foldl_append, List.foldl_cons, List.foldl_nil]
    obtain ⟨r, hr⟩ : ∃ r, r = l.foldl (bestStep key) none := ⟨_, rfl⟩
    rw [← hr] at ih ⊢
    unfold bestStep
    cases hc : key c with
    | none =>
      dsimp only
      cases r with
      | none =>
        dsimp only at ih ⊢
        intro x hx
        rcases List.mem_append.1 hx with h | h
        · exact ih x h
        · rw [List.mem_singleton.1 h]; exact hc
      | some r =>
        dsimp only at ih ⊢
        obtain ⟨a, b, e, h1, h2, h3⟩ := ih
        refine ⟨a, b ++ [c], by simp [e], h1, h2, ?_⟩
        intro x hx u hu
        rcases List.mem_append.1 hx with h | h
        · exact h3 x h u hu
        · rw [List.mem_singleton.1 h, hc] at hu; cases hu
    | some v =>
      dsimp only
      cases r with
      | none =>
        dsimp only at ih
        simp only [Option.map_none, gt, if_true]
        refine ⟨l, [], rfl, hc, ?_, by simp⟩
        intro x hx u hu
        rw [ih x hx] at hu; cases hu
      | some r =>
        dsimp only at ih
        simp only [Option.map_some, gt, decide_eq_true_eq]
        by_cases hlt : r.1 < v
        · rw [if_pos hlt]
          dsimp only
          refine ⟨l, [], rfl, hc, ?_, by simp⟩
          intro x hx u hu
          exact lt_of_le_of_lt (ih.le hx hu) hlt
        · rw [if_neg hlt]
          dsimp only
          obtain ⟨a, b, e, h1, h2, h3⟩ := ih
          refine ⟨a, b ++ [c], by simp [e], h1, h2, ?_⟩
          intro x hx u hu
          rcases List.mem_append.1 hx with h | h
          · exact h3 x h u hu
          · rw [List.mem_singleton.1 h, hc] at hu; cases hu
            exact le_of_not_gt hlt

/-- Quality plus model score, and model score minus quality. -/
def hopeKey (w : List Rat) (quality : Cand τ → Option Rat) (c : Cand τ) : Option Rat :=
  (quality c).map fun q => dot w c.feats + q
def fearKey (w : List Rat) (quality : Cand τ → Option Rat) (c : Cand τ) : Option Rat :=
  (quality c).map fun q => dot w c.feats - q

theorem hopeFear_eq (w : List Rat) (quality : Cand τ → Option Rat) (l : List (Cand τ)) :
    ((hopeFear w quality l).hopeTotal = (l.foldl (bestStep (hopeKey w quality)) none).map Prod.fst ∧
      (hopeFear w quality l).hope.map Prod.fst = (l.foldl (bestStep (hopeKey w quality)) none).map Prod.snd ∧
      ∀ h ∈ (hopeFear w quality l).hope, quality h.1 = some h.2) ∧
    ((hopeFear w quality l).fearTotal = (l.foldl (bestStep (fearKey w quality)) none).map Prod.fst ∧
      (hopeFear w quality l).fear.map Prod.fst = (l.foldl (bestStep (fearKey w quality)) none).map Prod.snd ∧
      ∀ h ∈ (hopeFear w quality l).fear, quality h.1 = some h.2) := by
  unfold hopeFear
  induction l using List.reverseRecOn with
  | nil => simp
  | append_singleton l c ih =>
    rw [List.foldl_append, List.foldl_append, List.foldl_append]
    simp only [List.foldl_cons, List.foldl_nil]
    obtain ⟨H, hH⟩ : ∃ H, H = l.foldl (hfStep w quality) {} := ⟨_, rfl⟩
    obtain ⟨b1, hb1⟩ : ∃ b, b = l.foldl (bestStep (hopeKey w quality)) none := ⟨_, rfl⟩
    obtain ⟨b2, hb2⟩ : ∃ b, b = l.foldl (bestStep (fearKey w quality)) none := ⟨_, rfl⟩
    rw [← hH, ← hb1, ← hb2] at ih
    rw [← hH, ← hb1, ← hb2]
    obtain ⟨⟨i1, i2, i3⟩, ⟨j1, j2, j3⟩⟩ := ih
    unfold hfStep bestStep
    cases hq : quality c with
    | none =>
      simp only [hopeKey, fearKey, hq, Option.map_none]
      exact ⟨⟨i1, i2, i3⟩, ⟨j1, j2, j3⟩⟩
    | some q =>
      simp only [hopeKey, fearKey, hq, Option.map_some]
      have e1 : (fearStep (hopeStep H c (dot w c.feats) q) c (dot w c.feats) q).hopeTotal =
          (hopeStep H c (dot w c.feats) q).hopeTotal := by unfold fearStep; split <;> rfl
      have e2 : (fearStep (hopeStep H c (dot w c.feats) q) c (dot w c.feats) q).hope =
          (hopeStep H c (dot w c.feats) q).hope := by unfold fearStep; split <;> rfl
      have e3 : (hopeStep H c (dot w c.feats) q).fearTotal = H.fearTotal := by unfold hopeStep; split <;> rfl
      have e4 : (hopeStep H c (dot w c.feats) q).fear = H.fear := by unfold hopeStep; split <;> rfl
      rw [e1, e2]
      constructor
      · unfold hopeStep
        rw [one_mul, ← i1]
        split
        · refine ⟨rfl, rfl, ?_⟩
          intro h hh
          cases hh
          exact hq
        · exact ⟨i1, i2, i3⟩
      · unfold fearStep
        rw [e3, ← j1]
        split
        · refine ⟨rfl, rfl, ?_⟩
          intro h hh
          cases hh
          exact hq
        · rw [e3, e4]
          exact ⟨j1, j2, j3⟩

/-- C119: if the quality of some candidate is a number, the hope (resp. fear) translation is the first candidate with
the greatest sum (resp. difference) of model score and quality, its quality is the one recorded, and the quality of the
hope translation is not less than that of the fear translation. -/
theorem C119_hope_fear (w : List Rat) (quality : Cand τ → Option Rat) (l : List (Cand τ))
    (hne : ∃ c ∈ l, (quality c).isSome) :
    ∃ h f, (hopeFear w quality l).hope = some h ∧ (hopeFear w quality l).fear = some f ∧
      quality h.1 = some h.2 ∧ quality f.1 = some f.2 ∧
      FirstArgmax (fun c => (quality c).map fun q => dot w c.feats + q) l h.1 (dot w h.1.feats + h.2) ∧
      FirstArgmax (fun c => (quality c).map fun q => dot w c.feats - q) l f.1 (dot w f.1.feats - f.2) ∧
      f.2 ≤ h.2 := by
  obtain ⟨⟨i1, i2, i3⟩, ⟨j1, j2, j3⟩⟩ := hopeFear_eq w quality l
  obtain ⟨c0, hc0, hs⟩ := hne
  obtain ⟨q0, hq0⟩ := Option.isSome_iff_exists.1 hs
  have s1 := bestFold_spec (hopeKey w quality) l
  have s2 := bestFold_spec (fearKey w quality) l
  cases hb1 : l.foldl (bestStep (hopeKey w quality)) none with
  | none =>
    rw [hb1] at s1
    have := s1 c0 hc0
    simp [hopeKey, hq0] at this
  | some r1 =>
    cases hb2 : l.foldl (bestStep (fearKey w quality)) none with
    | none =>
      rw [hb2] at s2
      have := s2 c0 hc0
      simp [fearKey, hq0] at this
    | some r2 =>
      rw [hb1] at s1 i1 i2
      rw [hb2] at s2 j1 j2
      dsimp only at s1 s2
      cases hh : (hopeFear w quality l).hope with
      | none => rw [hh] at i2; cases i2
      | some h =>
        cases hf : (hopeFear w quality l).fear with
        | none => rw [hf] at j2; cases j2
        | some f =>
          rw [hh] at i2 i3
          rw [hf] at j2 j3
          have eh : h.1 = r1.2 := by simpa using i2
          have ef : f.1 = r2.2 := by simpa using j2
          have qh := i3 h rfl
          have qf := j3 f rfl
          have v1 : r1.1 = dot w h.1.feats + h.2 := by
            have := s1.mem.2
            rw [← eh, hopeKey, qh] at this
            simpa using this.symm
          have v2 : r2.1 = dot w f.1.feats - f.2 := by
            have := s2.mem.2
            rw [← ef, fearKey, qf] at this
            simpa using this.symm
          rw [← eh, v1] at s1
          rw [← ef, v2] at s2
          refine ⟨h, f, rfl, rfl, qh, qf, s1, s2, ?_⟩
          have a1 := s1.le s2.mem.1 (u := dot w f.1.feats + f.2) (by rw [hopeKey, qf]; rfl)
          have a2 := s2.le s1.mem.1 (u := dot w h.1.feats - h.2) (by rw [fearKey, qh]; rfl)
          linarith

/-- C119: the translation with the greatest score, the first one if there are several. -/
theorem C119_max_translation (w : List Rat) (l : List (Cand τ)) (init : τ) (hl : l ≠ []) :
    ∃ c, FirstArgmax (fun c => some (dot w c.feats)) l c (dot w c.feats) ∧ maxTranslation w l init = c.text := by
  have key : ∀ l : List (Cand τ), (l.foldl (maxStep w) (none, init)) =
      match l.foldl (bestStep fun c => some (dot w c.feats)) none with
      | none => (none, init)
      | some r => (some r.1, r.2.text) := by
    intro l
    induction l using List.reverseRecOn with
    | nil => rfl
    | append_singleton l c ih =>
      rw [List.foldl_append, List.foldl_append]
      simp only [List.foldl_cons, List.foldl_nil]
      rw [ih]
      cases l.foldl (bestStep fun c => some (dot w c.feats)) none with
      | none => simp [maxStep, bestStep, gt]
      | some r =>
        simp only [maxStep, bestStep, Option.map_some]
        split <;> rfl
  have s := bestFold_spec (fun c : Cand τ => some (dot w c.feats)) l
  unfold maxTranslation
  rw [key l]
  cases hb : l.foldl (bestStep fun c => some (dot w c.feats)) none with
  | none =>
    rw [hb] at s
    obtain ⟨x, xs, rfl⟩ := List.exists_cons_of_ne_nil hl
    have := s x List.mem_cons_self
    cases this
  | some r =>
    rw [hb] at s
    dsimp only at s ⊢
    have := s.mem.2
    have e : dot w r.2.feats = r.1 := by simpa using this
    exact ⟨r.2, by rw [e]; exact s, rfl⟩

example : (hopeFear [1] (fun c : Cand Nat => some (c.text : Rat)) [⟨1, [0]⟩, ⟨0, [3]⟩, ⟨4, [2]⟩]).hope.map (·.1.text) =
    some 4 ∧ (hopeFear [1] (fun c : Cand Nat => some (c.text : Rat)) [⟨1, [0]⟩, ⟨0, [3]⟩, ⟨4, [2]⟩]).fear.map (·.1.text) =
    some 0 := by decide +kernel

/-! ### C120 -/

/-- Square of the distance between two vectors. -/
def sqDist (a b : List Rat) : Rat := dot (diffVec a b) (diffVec a b)

theorem dot_self_nonneg (a : List Rat) : 0 ≤ dot a a := by
  induction a with
  | nil => exact le_refl _
  | cons x a ih => rw [dot]; nlinarith [mul_self_nonneg x]

theorem sqDist_step (w d : List Rat) (e : Rat) (h : d.length = w.length) :
    sqDist (stepWeights w e d) w = e * e * dot d d := by
  induction w generalizing d with
  | nil =>
    cases d with
    | nil => simp [sqDist, stepWeights, diffVec, dot]
    | cons => simp at h
  | cons x w ih =>
    cases d with
    | nil => simp at h
    | cons y d =>
      have := ih d (by simpa using h)
      unfold sqDist stepWeights diffVec at this ⊢
      simp only [List.zipWith_cons_cons, dot]
      rw [this]; ring

theorem dot_step (w d : List Rat) (e : Rat) (h : d.length = w.length) :
    dot (stepWeights w e d) d = dot w d + e * dot d d := by
  induction w generalizing d with
  | nil =>
    cases d with
    | nil => simp [stepWeights, dot]
    | cons => simp at h
  | cons x w ih =>
    cases d with
    | nil => simp at h
    | cons y d =>
      have := ih d (by simpa using h)
      unfold stepWeights at this ⊢
      simp only [List.zipWith_cons_cons, dot]
      rw [this]; ring

/-- Expansion of the square of `v - w - e*d`. -/
theorem sq_expand (v w d : List Rat) (e : Rat) (hv : v.length = w.length) (h : d.length = w.length) :
    0 ≤ sqDist v w - 2 * e * (dot v d - dot w d) + e * e * dot d d := by
  induction w generalizing v d with
  | nil =>
    cases d with
    | nil =>
      cases v with
      | nil => simp [sqDist, diffVec, dot]
      | cons => simp at hv
    | cons => simp at h
  | cons x w ih =>
    cases d with
    | nil => simp at h
    | cons y d =>
      cases v with
      | nil => simp at hv
      | cons z v =>
        have := ih v d (by simpa using hv) (by simpa using h)
        unfold sqDist diffVec at this ⊢
        simp only [List.zipWith_cons_cons, dot]
        nlinarith [mul_self_nonneg (z - x - e * y)]

theorem length_stepWeights (w d : List Rat) (e : Rat) (h : d.length = w.length) :
    (stepWeights w e d).length = w.length := by
  unfold stepWeights
  rw [List.length_zipWith]; omega

theorem lossOf_step (w d : List Rat) (e hq fq : Rat) (h : d.length = w.length) :
    lossOf (stepWeights w e d) hq fq d = lossOf w hq fq d - e * dot d d := by
  unfold lossOf; rw [dot_step w d e h]; ring

/-- The penalized distance of `v` to the weights `w`: half the square of the distance, plus `c` times the loss. -/
def objective (c : Rat) (w : List Rat) (hq fq : Rat) (d v : List Rat) : Rat :=
  sqDist v w / 2 + c * max 0 (lossOf v hq fq d)

/-- C120: when the loss is positive, the new weights are the solution of the optimization problem that defines the
passive-aggressive update with cap `c`: no vector has a smaller sum of half the square of the distance to the old
weights and `c` times its loss. The new loss is between 0 and the old one; it is 0 if the step is not capped, and the
step is at most `c`. -/
theorem C120_update_optimal (c : Rat) (hc : 0 ≤ c) (w d : List Rat) (hq fq : Rat) (hlen : d.length = w.length)
    (hl : 0 < lossOf w hq fq d) :
    let w' := stepWeights w (eta c (lossOf w hq fq d) (dot d d)) d
    (∀ v, v.length = w.length → objective c w hq fq d w' ≤ objective c w hq fq d v) ∧
    0 ≤ lossOf w' hq fq d ∧ lossOf w' hq fq d ≤ lossOf w hq fq d ∧
    (dot d d ≠ 0 → lossOf w hq fq d ≤ c * dot d d → lossOf w' hq fq d = 0) ∧
    (dot d d ≠ 0 → 0 < c → lossOf w' hq fq d < lossOf w hq fq d) ∧
    sqDist w' w ≤ c * c * dot d d ∧ w'.length = w.length := by
  intro w'
  obtain ⟨L, hL⟩ : ∃ L, L = lossOf w hq fq d := ⟨_, rfl⟩
  obtain ⟨N, hN⟩ : ∃ N, N = dot d d := ⟨_, rfl⟩
  obtain ⟨e, he⟩ : ∃ e, e = eta c L N := ⟨_, rfl⟩
  have hw' : w' = stepWeights w e d := by rw [he, hL, hN]
  have hN0 : 0 ≤ N := by rw [hN]; exact dot_self_nonneg d
  have hloss : lossOf w' hq fq d = L - e * N := by rw [hw', lossOf_step w d e hq fq hlen, hL, hN]
  have hdist : sqDist w' w = e * e * N := by rw [hw', sqDist_step w d e hlen, hN]
  rw [← hL] at hl
  -- facts about the step
  have f : 0 ≤ e ∧ e ≤ c ∧ e * N ≤ L ∧ (e = c ∨ e * N = L) := by
    rw [he]
    unfold eta
    by_cases h0 : N = 0
    · rw [if_pos h0, h0]
      exact ⟨hc, le_refl _, by linarith, Or.inl rfl⟩
    · rw [if_neg h0]
      have hNp : 0 < N := lt_of_le_of_ne hN0 (Ne.symm h0)
      have hdiv : 0 < L / N := div_pos hl hNp
      refine ⟨le_min hc hdiv.le, min_le_left _ _, ?_, ?_⟩
      · calc min c (L / N) * N ≤ L / N * N := mul_le_mul_of_nonneg_right (min_le_right _ _) hN0
          _ = L := div_mul_cancel₀ L h0
      · rcases le_total c (L / N) with h | h
        · left; exact min_eq_left h
        · right; rw [min_eq_right h, div_mul_cancel₀ L h0]
  obtain ⟨f1, f2, f3, f4⟩ := f
  have hNd : 0 ≤ e * N := mul_nonneg f1 hN0
  refine ⟨?_, by rw [hloss]; linarith, by rw [hloss, ← hL]; linarith, ?_, ?_, ?_, ?_⟩
  · intro v hv
    unfold objective
    rw [hloss, hdist, max_eq_right (by linarith : 0 ≤ L - e * N)]
    have hx := sq_expand v w d e hv hlen
    rw [← hN] at hx
    have hvl : lossOf v hq fq d = L - (dot v d - dot w d) := by rw [hL]; unfold lossOf; ring
    obtain ⟨x, hx'⟩ : ∃ x, x = max 0 (lossOf v hq fq d) := ⟨_, rfl⟩
    rw [← hx']
    have x0 : 0 ≤ x := by rw [hx']; exact le_max_left _ _
    have x1 : L - (dot v d - dot w d) ≤ x := by rw [hx', ← hvl]; exact le_max_right _ _
    have y1 : e * (L - x) ≤ e * (dot v d - dot w d) := mul_le_mul_of_nonneg_left (by linarith) f1
    have y2 : e * x ≤ c * x := mul_le_mul_of_nonneg_right f2 x0
    have y3 : c * (L - e * N) ≤ e * (L - e * N) := by
      rcases f4 with h | h
      · rw [h]
      · rw [h]; simp
    nlinarith
  · intro h0 hle
    rw [← hN] at h0 hle
    rw [hloss]
    rcases f4 with h | h
    · rw [h] at f3 ⊢
      rw [← hL] at hle
      linarith
    · linarith
  · intro h0 hcp
    rw [← hN] at h0
    rw [hloss, ← hL]
    have hNp : 0 < N := lt_of_le_of_ne hN0 (Ne.symm h0)
    have : 0 < e * N := by
      rcases f4 with h | h
      · rw [h]; exact mul_pos hcp hNp
      · rw [h]; exact hl
    linarith
  · rw [hdist, ← hN]
    exact mul_le_mul_of_nonneg_right (mul_self_le_mul_self f1 f2) hN0
  · rw [hw']; exact length_stepWeights w d e hlen

/-- Non-vacuity: a capped and a not capped step. -/
example : 0 < lossOf [0, 0] 1 0 [1, 1] ∧ stepWeights [0, 0] (eta (1 / 100) 1 (dot [1, 1] [1, 1])) [1, 1] = [1 / 100, 1 / 100] ∧
    lossOf (stepWeights [0, 0] (eta 1 1 (dot [1, 1] [1, 1])) [1, 1]) 1 0 [1, 1] = 0 := by decide +kernel

/-! ### C121 -/

/-- One update of the weights with a sentence of the corpus. -/
def MiraStep (sc : Scorer τ B) (c : Rat) (corpus : List (Sent τ)) (w w' : List Rat) : Prop :=
  ∃ s ∈ corpus, ∃ (b : B) (h f : Cand τ × Rat),
    (hopeFear w (fun x => sc.bgScore b x.text s.1) s.2).hope = some h ∧
    (hopeFear w (fun x => sc.bgScore b x.text s.1) s.2).fear = some f ∧ f.2 < h.2 ∧
    0 < lossOf w h.2 f.2 (diffVec h.1.feats f.1.feats) ∧
    w' = stepWeights w (eta c (lossOf w h.2 f.2 (diffVec h.1.feats f.1.feats))
      (dot (diffVec h.1.feats f.1.feats) (diffVec h.1.feats f.1.feats))) (diffVec h.1.feats f.1.feats)

/-- `seen` (the last one first) are weights obtained from `w0` by successive updates. -/
inductive Seen (sc : Scorer τ B) (c : Rat) (corpus : List (Sent τ)) (w0 : List Rat) : List (List Rat) → Prop
  | start : Seen sc c corpus w0 [w0]
  | step {w w' : List Rat} {l : List (List Rat)} : Seen sc c corpus w0 (w :: l) → MiraStep sc c corpus w w' →
      Seen sc c corpus w0 (w' :: w :: l)

/-- The mean of some vectors. -/
def IsMean (l : List (List Rat)) (m : List Rat) : Prop :=
  ∀ k x, m[k]? = some x → x * l.length = (l.map fun v => v.getD k 0).sum

/-- Invariant of an epoch. -/
structure EpochInv (sc : Scorer τ B) (c : Rat) (corpus : List (Sent τ)) (w0 : List Rat) (st : St B) : Prop where
  ex : ∃ l, Seen sc c corpus w0 (st.wt :: l) ∧ st.nUpdates = l.length + 1 ∧
    ∀ k x, st.wTotals[k]? = some x → x = ((st.wt :: l).map fun v => v.getD k 0).sum
  len1 : st.wt.length = w0.length
  len2 : st.wTotals.length = w0.length

theorem hope_mem {w : List Rat} {quality : Cand τ → Option Rat} {l : List (Cand τ)} {h : Cand τ × Rat}
    (e : (hopeFear w quality l).hope = some h) : h.1 ∈ l := by
  obtain ⟨⟨i1, i2, i3⟩, _⟩ := hopeFear_eq w quality l
  have s1 := bestFold_spec (hopeKey w quality) l
  cases hb : l.foldl (bestStep (hopeKey w quality)) none with
  | none => rw [hb, e] at i2; cases i2
  | some r =>
    rw [hb] at s1 i2
    rw [e] at i2
    have : h.1 = r.2 := by simpa using i2
    rw [this]; exact s1.mem.1

theorem fear_mem {w : List Rat} {quality : Cand τ → Option Rat} {l : List (Cand τ)} {h : Cand τ × Rat}
    (e : (hopeFear w quality l).fear = some h) : h.1 ∈ l := by
  obtain ⟨_, ⟨i1, i2, i3⟩⟩ := hopeFear_eq w quality l
  have s1 := bestFold_spec (fearKey w quality) l
  cases hb : l.foldl (bestStep (fearKey w quality)) none with
  | none => rw [hb, e] at i2; cases i2
  | some r =>
    rw [hb] at s1 i2
    rw [e] at i2
    have : h.1 = r.2 := by simpa using i2
    rw [this]; exact s1.mem.1

theorem processSent_inv {sc : Scorer τ B} {c decay : Rat} {corpus : List (Sent τ)} {w0 : List Rat}
    (hfeat : ∀ s ∈ corpus, ∀ x ∈ s.2, x.feats.length = w0.length) {s : Sent τ} (hs : s ∈ corpus) {st st' : St B}
    (hi : EpochInv sc c corpus w0 st) (h : processSent sc c decay s.1 s.2 st = some st') :
    EpochInv sc c corpus w0 st' := by
  unfold processSent at h
  cases hh : (hopeFear st.wt (fun x => sc.bgScore st.bg x.text s.1) s.2).hope with
  | none => rw [hh] at h; cases h
  | some hp =>
    cases hf : (hopeFear st.wt (fun x => sc.bgScore st.bg x.text s.1) s.2).fear with
    | none => rw [hh, hf] at h; cases h
    | some fr =>
      rw [hh, hf] at h
      dsimp only at h
      split at h
      · rename_i hgt
        cases h
        unfold updWeights
        have hdl : (diffVec hp.1.feats fr.1.feats).length = st.wt.length := by
          unfold diffVec
          rw [List.length_zipWith, hfeat s hs _ (hope_mem hh), hfeat s hs _ (fear_mem hf), hi.len1, Nat.min_self]
        obtain ⟨d, hd⟩ : ∃ d, d = diffVec hp.1.feats fr.1.feats := ⟨_, rfl⟩
        rw [← hd] at hdl ⊢
        by_cases hl : lossOf st.wt hp.2 fr.2 d > 0
        · rw [if_pos hl]
          obtain ⟨l, h1, h2, h3⟩ := hi.ex
          have hstep : MiraStep sc c corpus st.wt (stepWeights st.wt (eta c (lossOf st.wt hp.2 fr.2 d) (dot d d)) d) :=
            ⟨s, hs, st.bg, hp, fr, hh, hf, hgt, by rw [← hd]; exact hl, by rw [← hd]⟩
          refine ⟨⟨st.wt :: l, Seen.step h1 hstep, ?_, ?_⟩, ?_, ?_⟩
          · simp [h2]
          · intro k x hx
            dsimp only at hx ⊢
            rw [List.getElem?_zipWith] at hx
            cases ht : st.wTotals[k]? with
            | none => rw [ht] at hx; simp at hx
            | some t =>
              cases hw : (stepWeights st.wt (eta c (lossOf st.wt hp.2 fr.2 d) (dot d d)) d)[k]? with
              | none => rw [ht, hw] at hx; simp at hx
              | some u =>
                rw [ht, hw] at hx
                simp only [Option.some.injEq] at hx
                rw [List.map_cons, List.sum_cons, List.getD_eq_getElem?_getD, hw, ← h3 k t ht, ← hx]
                simp [add_comm]
          · dsimp only; rw [length_stepWeights _ _ _ hdl, hi.len1]
          · dsimp only; rw [List.length_zipWith, length_stepWeights _ _ _ hdl, hi.len1, hi.len2, Nat.min_self]
        · rw [if_neg hl]
          exact ⟨hi.ex, hi.len1, hi.len2⟩
      · cases h; exact hi

theorem epochLoop_inv {sc : Scorer τ B} {c decay : Rat} {corpus : List (Sent τ)} {w0 : List Rat}
    (hfeat : ∀ s ∈ corpus, ∀ x ∈ s.2, x.feats.length = w0.length) (is : List Nat) {st st' : St B}
    (hi : EpochInv sc c corpus w0 st) (h : epochLoop sc c decay corpus is st = some st') :
    EpochInv sc c corpus w0 st' := by
  induction is generalizing st with
  | nil => rw [epochLoop] at h; cases h; exact hi
  | cons i is ih =>
    rw [epochLoop] at h
    cases hs : corpus[i]? with
    | none => rw [hs] at h; cases h
    | some s =>
      rw [hs] at h
      dsimp only at h
      cases hp : processSent sc c decay s.1 s.2 st with
      | none => rw [hp] at h; cases h
      | some st1 =>
        rw [hp] at h
        exact ih (processSent_inv hfeat (List.mem_of_getElem? hs) hi hp) h

theorem avg_mean {sc : Scorer τ B} {c : Rat} {corpus : List (Sent τ)} {w0 : List Rat} {st : St B}
    (hi : EpochInv sc c corpus w0 st) : (avg st).length = w0.length ∧ ∃ l, Seen sc c corpus w0 l ∧ IsMean l (avg st) := by
  obtain ⟨l, h1, h2, h3⟩ := hi.ex
  refine ⟨by unfold avg; rw [List.length_map, hi.len2], _, h1, ?_⟩
  intro k x hx
  unfold avg at hx
  rw [List.getElem?_map] at hx
  cases ht : st.wTotals[k]? with
  | none => rw [ht] at hx; cases hx
  | some t =>
    rw [ht] at hx
    simp only [Option.map_some, Option.some.injEq] at hx
    rw [← h3 k t ht, ← hx, h2, List.length_cons]
    apply div_mul_cancel₀
    have : (l.length + 1 : Nat) ≠ 0 := by omega
    exact_mod_cast this

/-- A property of the evaluated averages that holds in every epoch. -/
theorem iters_trace {epoch : Nat → St B → Option (St B)} {eval : List Rat → Option Rat} {er : Nat} (I : St B → Prop)
    (hI : ∀ j st st', I st → epoch j st = some st' → I st') (fuel j : Nat) (st : St B) (s : Nat × Rat × Best) (hst : I st)
    {r : B × Best × List (List Rat × Option Rat)} (h : iters epoch eval er fuel j st s = some r) :
    r.2.2.length ≤ fuel ∧ (0 < fuel → r.2.2 ≠ []) ∧ ∀ x ∈ r.2.2, x.2 = eval x.1 ∧ ∃ st', I st' ∧ x.1 = avg st' := by
  induction fuel generalizing j st s r with
  | zero =>
    rw [iters] at h; cases h
    exact ⟨Nat.le_refl _, fun h => absurd h (Nat.lt_irrefl _), by simp⟩
  | succ fuel ih =>
    rw [iters] at h
    cases he : epoch j st with
    | none => rw [he] at h; cases h
    | some st1 =>
      have h1 := hI j st st1 hst he
      rw [he] at h
      dsimp only at h
      split at h
      · cases h
        refine ⟨by simp, by simp, ?_⟩
        intro x hx
        rw [List.mem_singleton.1 hx]
        exact ⟨rfl, st1, h1, rfl⟩
      · split at h
        · cases h
        · rename_i r' hr'
          cases h
          obtain ⟨a1, a2, a3⟩ := ih _ _ _ h1 hr'
          refine ⟨by simp; exact a1, by simp, ?_⟩
          intro x hx
          rcases List.mem_cons.1 hx with rfl | hx
          · exact ⟨rfl, st1, h1, rfl⟩
          · exact a3 x hx

/-- What the best means with respect to the averages evaluated so far. -/
def BestOf (best : Best) (tr : List (List Rat × Option Rat)) : Prop :=
  (best = ⟨0, []⟩ ∧ ∀ x ∈ tr, ∀ q, x.2 = some q → q ≤ 0) ∨
  (0 < best.quality ∧ FirstArgmax (fun x : List Rat × Option Rat => x.2) tr (best.w, some best.quality) best.quality)

theorem BestOf.nonneg {best : Best} {tr : List (List Rat × Option Rat)} (h : BestOf best tr) : 0 ≤ best.quality := by
  rcases h with ⟨rfl, _⟩ | ⟨h, _⟩
  · exact le_refl _
  · exact le_of_lt h

theorem BestOf.snoc_le {best : Best} {tr : List (List Rat × Option Rat)} (h : BestOf best tr) (x : List Rat × Option Rat)
    (hx : ∀ q, x.2 = some q → q ≤ best.quality) : BestOf best (tr ++ [x]) := by
  rcases h with ⟨rfl, h⟩ | ⟨h0, a, b, e, h1, h2, h3⟩
  · left
    refine ⟨rfl, ?_⟩
    intro y hy q hq
    rcases List.mem_append.1 hy with hy | hy
    · exact h y hy q hq
    · rw [List.mem_singleton.1 hy] at hq; exact hx q hq
  · right
    refine ⟨h0, a, b ++ [x], by simp [e], h1, h2, ?_⟩
    intro y hy q hq
    rcases List.mem_append.1 hy with hy | hy
    · exact h3 y hy q hq
    · rw [List.mem_singleton.1 hy] at hq; exact hx q hq

theorem BestOf.snoc_gt {best : Best} {tr : List (List Rat × Option Rat)} (h : BestOf best tr) (w : List Rat) (q : Rat)
    (hq : best.quality < q) : BestOf ⟨q, w⟩ (tr ++ [(w, some q)]) := by
  right
  refine ⟨lt_of_le_of_lt h.nonneg hq, tr, [], rfl, rfl, ?_, by simp⟩
  intro x hx u hu
  refine lt_of_le_of_lt ?_ hq
  rcases h with ⟨rfl, h⟩ | ⟨_, h⟩
  · exact h x hx u hu
  · exact h.le hx hu

theorem evalStep_best {j : Nat} {q : Option Rat} {w : List Rat} {s : Nat × Rat × Best} {tr : List (List Rat × Option Rat)}
    (h : BestOf s.2.2 tr) (hle : s.2.1 ≤ s.2.2.quality) :
    BestOf (evalStep j q w s).2.2 (tr ++ [(w, q)]) ∧ (evalStep j q w s).2.1 ≤ (evalStep j q w s).2.2.quality := by
  unfold evalStep
  cases q with
  | none => exact ⟨h.snoc_le _ (by simp), hle⟩
  | some q =>
    dsimp only
    by_cases h1 : q > s.2.1
    · rw [if_pos h1]
      dsimp only
      by_cases h2 : q > s.2.2.quality
      · rw [if_pos h2]
        exact ⟨h.snoc_gt w q h2, le_refl _⟩
      · rw [if_neg h2]
        refine ⟨h.snoc_le _ ?_, le_of_not_gt h2⟩
        intro q' hq'
        cases hq'
        exact le_of_not_gt h2
    · rw [if_neg h1]
      refine ⟨h.snoc_le _ ?_, hle⟩
      intro q' hq'
      cases hq'
      exact le_trans (le_of_not_gt h1) hle

theorem iters_best {epoch : Nat → St B → Option (St B)} {eval : List Rat → Option Rat} {er : Nat} (fuel j : Nat) (st : St B)
    (s : Nat × Rat × Best) (tr : List (List Rat × Option Rat)) (hb : BestOf s.2.2 tr) (hle : s.2.1 ≤ s.2.2.quality)
    {r : B × Best × List (List Rat × Option Rat)} (h : iters epoch eval er fuel j st s = some r) :
    BestOf r.2.1 (tr ++ r.2.2) := by
  induction fuel generalizing j st s tr r with
  | zero => rw [iters] at h; cases h; simpa using hb
  | succ fuel ih =>
    rw [iters] at h
    cases he : epoch j st with
    | none => rw [he] at h; cases h
    | some st1 =>
      rw [he] at h
      dsimp only at h
      obtain ⟨b1, b2⟩ := evalStep_best (j := j) (q := eval (avg st1)) (w := avg st1) hb hle
      split at h
      · cases h; exact b1
      · split at h
        · cases h
        · rename_i r' hr'
          cases h
          have := ih _ _ _ _ b1 b2 hr'
          rw [List.append_assoc] at this
          exact this

theorem restarts_spec {epoch : Nat → Nat → St B → Option (St B)} {eval : List Rat → Option Rat} {er nIters : Nat}
    {w0 : List Rat} (I : St B → Prop) (hI : ∀ k j st st', I st → epoch k j st = some st' → I st')
    (h0 : ∀ bg, I ⟨w0, w0, 1, bg⟩) (fuel k : Nat) (bg : B) (best : Best) (tr : List (List Rat × Option Rat))
    (hb : BestOf best tr) {r : Best × List (List Rat × Option Rat)}
    (h : restarts epoch eval er nIters w0 fuel k bg best = some r) :
    BestOf r.1 (tr ++ r.2) ∧ r.2.length ≤ fuel * nIters ∧ (0 < fuel → 0 < nIters → r.2 ≠ []) ∧
    ∀ x ∈ r.2, x.2 = eval x.1 ∧ ∃ st', I st' ∧ x.1 = avg st' := by
  induction fuel generalizing k bg best tr r with
  | zero =>
    rw [restarts] at h; cases h
    exact ⟨by simpa using hb, by simp, fun h => absurd h (Nat.lt_irrefl _), by simp⟩
  | succ fuel ih =>
    rw [restarts] at h
    cases hit : iters (epoch k) eval er nIters 0 ⟨w0, w0, 1, bg⟩ (0, 0, best) with
    | none => rw [hit] at h; cases h
    | some r1 =>
      rw [hit] at h
      dsimp only at h
      have b1 := iters_best nIters 0 _ _ tr hb hb.nonneg hit
      obtain ⟨t1, t2, t3⟩ := iters_trace I (hI k) nIters 0 _ _ (h0 bg) hit
      split at h
      · cases h
      · rename_i r' hr'
        cases h
        obtain ⟨a1, a2, a3, a4⟩ := ih _ _ _ _ b1 hr'
        refine ⟨by rw [List.append_assoc] at a1; exact a1, ?_, ?_, ?_⟩
        · rw [List.length_append, Nat.succ_mul]; omega
        · intro _ hn he
          exact t2 hn (List.append_eq_nil_iff.1 he).1
        · intro x hx
          rcases List.mem_append.1 hx with hx | hx
          · exact t3 x hx
          · exact a4 x hx

theorem restarts_result {sc : Scorer τ B} {p : Pars} {corpus : List (Sent τ)} {w0 : List Rat}
    {epoch : Nat → Nat → St B → Option (St B)} {eval : List Rat → Option Rat}
    (hI : ∀ k j st st', EpochInv sc p.c corpus w0 st → epoch k j st = some st' → EpochInv sc p.c corpus w0 st')
    {r : Best × List (List Rat × Option Rat)}
    (h : restarts epoch eval p.epochsToRestart p.nIters w0 p.maxRestarts 0 sc.reset ⟨0, []⟩ = some r) :
    ((newWeights r = [] ∧ ∀ x ∈ r.2, ∀ q, x.2 = some q → q ≤ 0) ∨
      (∃ q, 0 < q ∧ FirstArgmax (fun x => x.2) r.2 (newWeights r, some q) q)) ∧
    (∀ x ∈ r.2, x.2 = eval x.1 ∧ x.1.length = w0.length ∧ ∃ l, Seen sc p.c corpus w0 l ∧ IsMean l x.1) ∧
    r.2.length ≤ p.maxRestarts * p.nIters ∧ (0 < p.maxRestarts → 0 < p.nIters → r.2 ≠ []) := by
  obtain ⟨a1, a2, a3, a4⟩ := restarts_spec (EpochInv sc p.c corpus w0) hI (fun bg => by
    refine ⟨⟨[], Seen.start, rfl, ?_⟩, rfl, rfl⟩
    intro k x hx
    dsimp only at hx ⊢
    simp [List.getD_eq_getElem?_getD, hx]) p.maxRestarts 0 sc.reset ⟨0, []⟩ [] (Or.inl ⟨rfl, by simp⟩) h
  rw [List.nil_append] at a1
  refine ⟨?_, ?_, a2, a3⟩
  · rcases a1 with ⟨e, h1⟩ | ⟨h0, h1⟩
    · left; exact ⟨by unfold newWeights; rw [e], h1⟩
    · right; exact ⟨_, h0, h1⟩
  · intro x hx
    obtain ⟨e, st', hs, ha⟩ := a4 x hx
    obtain ⟨m1, l, m2, m3⟩ := avg_mean hs
    rw [← ha] at m1 m3
    exact ⟨e, m1, l, m2, m3⟩

/-- What a caller relies on: the new weights are as many as the old ones. -/
def C121_full : Prop := ∀ (p : Pars) (sc : Scorer (List Nat) Unit) (ref : List Nat) (cands : List (Cand (List Nat)))
    (w0 : List Rat), (∀ c ∈ cands, c.feats.length = w0.length) → cands ≠ [] →
    (∀ b c, (sc.bgScore b c ref).isSome) →
    ∀ r, update p sc [] ref cands w0 = some r → (newWeights r).length = w0.length

/-- It is false: with a scorer that gives no positive score (e.g. because no candidate has a right word), the vector of
new weights is empty. -/
theorem C121_counterexample : ¬ C121_full := by
  intro h
  have := h { nIters := 1 } ⟨(), fun _ _ _ => some 0, fun _ _ _ _ => (), fun _ _ => some 0, fun _ _ => some 0⟩ [0]
    [⟨[1], [1]⟩] [1] (by simp) (by simp) (by simp) (⟨0, []⟩, [([1], some 0)]) (by decide +kernel)
  simp [newWeights] at this

/-- C121, one sentence: the list `r.2` contains the averages evaluated, with the score of the best translation for each
of them. Each of them is the mean of vectors of weights obtained from the current ones by successive updates, and has as
many components. If some score is positive, the new weights are the first of the averages with the greatest score; if
none is, the vector of new weights is empty. -/
theorem C121_update_partial (p : Pars) (sc : Scorer τ B) (empty ref : τ) (cands : List (Cand τ)) (w0 : List Rat)
    (hfeat : ∀ c ∈ cands, c.feats.length = w0.length) (r : Best × List (List Rat × Option Rat))
    (h : update p sc empty ref cands w0 = some r) :
    ((newWeights r = [] ∧ ∀ x ∈ r.2, ∀ q, x.2 = some q → q ≤ 0) ∨
      (∃ q, 0 < q ∧ FirstArgmax (fun x => x.2) r.2 (newWeights r, some q) q)) ∧
    (∀ x ∈ r.2, x.2 = sc.sent (maxTranslation x.1 cands empty) ref ∧ x.1.length = w0.length ∧
      ∃ l, Seen sc p.c [(ref, cands)] w0 l ∧ IsMean l x.1) ∧
    r.2.length ≤ p.maxRestarts * p.nIters ∧ (0 < p.maxRestarts → 0 < p.nIters → r.2 ≠ []) := by
  unfold update at h
  apply restarts_result (corpus := [(ref, cands)]) _ h
  intro k j st st' hi hs
  exact processSent_inv (s := (ref, cands)) (by
    intro s hs' x hx
    rw [List.mem_singleton.1 hs'] at hx
    exact hfeat x hx) (by simp) hi hs

/-- C121, corpus. -/
theorem C121_update_corpus_partial (p : Pars) (sc : Scorer τ B) (empty : τ) (rnd : Nat → Nat → Nat → Nat)
    (corpus : List (Sent τ)) (w0 : List Rat) (hfeat : ∀ s ∈ corpus, ∀ c ∈ s.2, c.feats.length = w0.length)
    (r : Best × List (List Rat × Option Rat)) (h : updateClosedCorpus p sc empty rnd corpus w0 = some r) :
    ((newWeights r = [] ∧ ∀ x ∈ r.2, ∀ q, x.2 = some q → q ≤ 0) ∨
      (∃ q, 0 < q ∧ FirstArgmax (fun x => x.2) r.2 (newWeights r, some q) q)) ∧
    (∀ x ∈ r.2, x.2 = sc.corpus (corpusTranslations x.1 corpus empty) (corpus.map Prod.fst) ∧ x.1.length = w0.length ∧
      ∃ l, Seen sc p.c corpus w0 l ∧ IsMean l x.1) ∧
    r.2.length ≤ p.maxRestarts * p.nIters ∧ (0 < p.maxRestarts → 0 < p.nIters → r.2 ≠ []) := by
  unfold updateClosedCorpus at h
  apply restarts_result (corpus := corpus) _ h
  intro k j st st' hi hs
  unfold corpusEpoch at hs
  split at hs
  · cases hs
  · exact epochLoop_inv hfeat _ hi hs

/-! ### The order of the sentences -/

theorem swap_perm {l l' : List Nat} {i j : Nat} (h : swap l i j = some l') : l'.Perm l := by
  unfold swap at h
  cases hi : l[i]? with
  | none => rw [hi] at h; cases h
  | some a =>
    cases hj : l[j]? with
    | none => rw [hi, hj] at h; cases h
    | some b =>
      rw [hi, hj] at h
      dsimp only at h
      cases h
      obtain ⟨hi', ei⟩ := List.getElem?_eq_some_iff.1 hi
      obtain ⟨hj', ej⟩ := List.getElem?_eq_some_iff.1 hj
      rw [List.perm_iff_count]
      intro x
      rw [List.count_set (by simpa using hj'), List.count_set hi']
      by_cases hij : i = j
      · subst hij
        rw [ei] at ej; subst ej
        simp only [List.getElem_set_self, ei]
        have : (if a == x then 1 else 0) ≤ l.count x := by
          split
          · rename_i hx
            have : a = x := by simpa using hx
            subst this
            exact List.count_pos_iff.2 (List.mem_of_getElem? hi)
          · omega
        omega
      · rw [List.getElem_set_ne hij, ei, ej]
        have h1 : (if a == x then 1 else 0) ≤ l.count x := by
          split
          · rename_i hx
            have : a = x := by simpa using hx
            subst this
            exact List.count_pos_iff.2 (List.mem_of_getElem? hi)
          · omega
        omega

theorem shuffleLoop_perm (rnd : Nat → Nat) (k : Nat) (l : List Nat) (hk : k = 0 ∨ k < l.length) :
    ∃ l', shuffleLoop rnd k l = some l' ∧ l'.Perm l := by
  induction k generalizing l with
  | zero => exact ⟨l, rfl, List.Perm.refl _⟩
  | succ k ih =>
    rw [shuffleLoop]
    have hk' : k + 1 < l.length := by omega
    have hm : rnd (k + 1) % (k + 1) < k + 1 := Nat.mod_lt _ (by omega)
    cases hs : swap l (k + 1) (rnd (k + 1) % (k + 1)) with
    | none =>
      unfold swap at hs
      rw [List.getElem?_eq_getElem hk', List.getElem?_eq_getElem (by omega)] at hs
      cases hs
    | some l' =>
      have hp := swap_perm hs
      obtain ⟨l'', h1, h2⟩ := ih l' (by rw [hp.length_eq]; omega)
      exact ⟨l'', h1, h2.trans hp⟩

/-- C122: whatever `rand()` returns, the shuffling stays within the array and an epoch processes every sentence of the
corpus exactly once. -/
theorem C122_each_sentence_once (rnd : Nat → Nat) (n : Nat) :
    ∃ idx, sampleWoReplacement rnd n = some idx ∧ idx.Perm (List.range n) ∧ ∀ i, i < n → idx.count i = 1 := by
  obtain ⟨idx, h1, h2⟩ := shuffleLoop_perm rnd (n - 1) (List.range n) (by rw [List.length_range]; omega)
  refine ⟨idx, h1, h2, ?_⟩
  intro i hi
  rw [h2.count_eq, List.count_eq_one_of_mem List.nodup_range (List.mem_range.2 hi)]

example : sampleWoReplacement (fun k => k) 4 ≠ some (List.range 4) := by decide +kernel

/-! ### Absence of undefined behaviour -/

theorem processSent_some {sc : Scorer τ B} {c decay : Rat} {s : Sent τ} {st : St B}
    (hq : ∃ x ∈ s.2, (sc.bgScore st.bg x.text s.1).isSome) : (processSent sc c decay s.1 s.2 st).isSome := by
  obtain ⟨h, f, h1, h2, _⟩ := C119_hope_fear st.wt (fun x => sc.bgScore st.bg x.text s.1) s.2 hq
  unfold processSent
  rw [h1, h2]
  dsimp only
  split <;> rfl

theorem epochLoop_some {sc : Scorer τ B} {c decay : Rat} {corpus : List (Sent τ)} (is : List Nat) (st : St B)
    (hq : ∀ b, ∀ s ∈ corpus, ∃ x ∈ s.2, (sc.bgScore b x.text s.1).isSome) (hi : ∀ i ∈ is, i < corpus.length) :
    (epochLoop sc c decay corpus is st).isSome := by
  induction is generalizing st with
  | nil => rfl
  | cons i is ih =>
    rw [epochLoop, List.getElem?_eq_getElem (hi i List.mem_cons_self)]
    dsimp only
    obtain ⟨st', h⟩ := Option.isSome_iff_exists.1
      (processSent_some (c := c) (decay := decay) (hq st.bg _ (List.getElem_mem (hi i List.mem_cons_self))))
    rw [h]
    exact ih st' (fun j hj => hi j (List.mem_cons_of_mem _ hj))

theorem iters_some {epoch : Nat → St B → Option (St B)} {eval : List Rat → Option Rat} {er : Nat}
    (he : ∀ j st, (epoch j st).isSome) (fuel j : Nat) (st : St B) (s : Nat × Rat × Best) :
    (iters epoch eval er fuel j st s).isSome := by
  induction fuel generalizing j st s with
  | zero => rfl
  | succ fuel ih =>
    rw [iters]
    obtain ⟨st', h⟩ := Option.isSome_iff_exists.1 (he j st)
    rw [h]
    dsimp only
    split
    · rfl
    · obtain ⟨r, h'⟩ := Option.isSome_iff_exists.1 (ih (j + 1) st' (evalStep j (eval (avg st')) (avg st') s))
      rw [h']; rfl

theorem restarts_some {epoch : Nat → Nat → St B → Option (St B)} {eval : List Rat → Option Rat} {er n : Nat}
    {w0 : List Rat} (he : ∀ k j st, (epoch k j st).isSome) (fuel k : Nat) (bg : B) (b : Best) :
    (restarts epoch eval er n w0 fuel k bg b).isSome := by
  induction fuel generalizing k bg b with
  | zero => rfl
  | succ fuel ih =>
    rw [restarts]
    obtain ⟨r, h⟩ := Option.isSome_iff_exists.1 (iters_some (eval := eval) (er := er) (he k) n 0 ⟨w0, w0, 1, bg⟩ (0, 0, b))
    rw [h]
    dsimp only
    obtain ⟨r', h'⟩ := Option.isSome_iff_exists.1 (ih (k + 1) r.1 r.2.1)
    rw [h']; rfl

/-- C121: if the scorer gives a number to some candidate of every sentence, both updates end without reading
uninitialized members or positions out of bounds, for every sequence of random numbers. (If for some sentence it gives
none, `HopeFear` leaves its result uninitialized: `C121_undefined`.) -/
theorem C121_defined (p : Pars) (sc : Scorer τ B) (empty : τ) :
    (∀ ref cands w0, (∀ b, ∃ x ∈ cands, (sc.bgScore b x.text ref).isSome) →
      (update p sc empty ref cands w0).isSome) ∧
    (∀ rnd (corpus : List (Sent τ)) w0, (∀ b, ∀ s ∈ corpus, ∃ x ∈ s.2, (sc.bgScore b x.text s.1).isSome) →
      (updateClosedCorpus p sc empty rnd corpus w0).isSome) := by
  constructor
  · intro ref cands w0 h
    exact restarts_some (fun _ _ st => processSent_some (s := (ref, cands)) (h st.bg)) _ _ _ _
  · intro rnd corpus w0 h
    apply restarts_some
    intro k j st
    unfold corpusEpoch
    obtain ⟨idx, h1, h2, _⟩ := C122_each_sentence_once (rnd k j) corpus.length
    rw [h1]
    exact epochLoop_some idx st h (fun i hi => List.mem_range.1 (h2.mem_iff.1 hi))

/-- C121: an empty n-best list is read uninitialized as soon as there is an iteration. -/
theorem C121_undefined (p : Pars) (sc : Scorer τ B) (empty ref : τ) (w0 : List Rat) (h1 : 0 < p.maxRestarts)
    (h2 : 0 < p.nIters) : update p sc empty ref [] w0 = none := by
  unfold update
  obtain ⟨m, hm⟩ : ∃ m, p.maxRestarts = m + 1 := ⟨p.maxRestarts - 1, by omega⟩
  obtain ⟨n, hn⟩ : ∃ n, p.nIters = n + 1 := ⟨p.nIters - 1, by omega⟩
  rw [hm, hn]
  rfl

end Thot.KbMira
