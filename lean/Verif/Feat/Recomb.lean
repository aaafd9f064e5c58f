import Verif.Feat.Score
import Verif.Search.Wf
import Mathlib.Tactic.LinearCombination

/-! Property C143: hypotheses with the same state (those the decoder recombines) get the same scores from the same
extensions. True when there is at most one language model; refuted with two. -/
set_option linter.unusedSectionVars false
namespace Thot.Feat
open Thot.StrProc (Str)
open Thot.Meta (Segm)
open Thot.Search (HypData extend nullData covered)
open Spec

namespace Spec
/-- The phrases translate disjoint segments inside a sentence of `n` words. -/
structure Disj (n : Nat) (D : List Step) : Prop where
  inside : ∀ s ∈ D, 1 ≤ s.l ∧ s.l ≤ s.r ∧ s.r ≤ n
  disjoint : D.Pairwise fun a b => a.r < b.l ∨ b.r < a.l

/-- A sequence of extensions of the null hypothesis that the decoder can make: each one adds some phrase, and the
phrases translate disjoint segments of the sentence. -/
structure Ok (n : Nat) (groups : List (List Step)) : Prop where
  pos : 0 < n
  some : ∀ g ∈ groups, g ≠ []
  disj : Disj n groups.flatten

/-- Number of language models among the features. -/
def numLms {R : Type} (fs : List (R × Feat R)) : Nat :=
  fs.countP fun p => match p.2 with | .lm _ => true | _ => false
end Spec

section
variable {R : Type} [CommRing R]

theorem disj_srcWords {n : Nat} {D : List Step} (h : Disj n D) :
    srcWords D = (List.range' 1 n).countP (covered (B D)) := by
  have := Thot.Search.sum_len_eq_count n (D.map fun s => (s.l, s.r))
    (by intro s hs; obtain ⟨t, ht, rfl⟩ := List.mem_map.1 hs; exact h.inside t ht)
    (by rw [List.pairwise_map]; exact h.disjoint)
  have e : (fun j => (D.map fun s => ((s.l, s.r) : Segm)).any fun s => decide (s.1 ≤ j) && decide (j ≤ s.2)) = covered (B D) := by
    funext j; unfold covered; rw [B_srcSegm]
  rw [e, List.map_map] at this
  exact this

theorem ok_hist {n : Nat} {gs : List (List Step)} (h : Ok n gs) : Hist n gs where
  pos := h.pos
  some := h.some
  seg := fun s hs => (h.disj.inside s hs).2.1
  fits := by
    rw [disj_srcWords h.disj]
    have := List.countP_le_length (p := covered (B gs.flatten)) (l := List.range' 1 n)
    simpa using this

theorem covered_B (D : List Step) (j : Nat) : covered (B D) j = true ↔ ∃ s ∈ D, s.l ≤ j ∧ j ≤ s.r := by
  rw [Thot.Search.covered_iff, B_srcSegm]; simp

theorem disj_append {n : Nat} {D E : List Step} : Disj n (D ++ E) ↔ Disj n D ∧ Disj n E ∧
    ∀ j, covered (B D) j = true → covered (B E) j = false := by
  constructor
  · rintro ⟨h1, h2⟩
    rw [List.pairwise_append] at h2
    refine ⟨⟨fun s hs => h1 s (by simp [hs]), h2.1⟩, ⟨fun s hs => h1 s (by simp [hs]), h2.2.1⟩, ?_⟩
    intro j hj
    rw [← Bool.not_eq_true, covered_B]
    rintro ⟨t, ht, ht1, ht2⟩
    obtain ⟨s, hs, hs1, hs2⟩ := (covered_B D j).1 hj
    have := h2.2.2 s hs t ht
    omega
  · rintro ⟨h1, h2, h3⟩
    refine ⟨?_, ?_⟩
    · intro s hs
      rcases List.mem_append.1 hs with hs | hs
      · exact h1.inside s hs
      · exact h2.inside s hs
    · rw [List.pairwise_append]
      refine ⟨h1.disjoint, h2.disjoint, ?_⟩
      intro a ha b hb
      have ia := h1.inside a ha
      have ib := h2.inside b hb
      have q : ∀ j, ¬ ((a.l ≤ j ∧ j ≤ a.r) ∧ (b.l ≤ j ∧ j ≤ b.r)) := by
        rintro j ⟨hj, hj'⟩
        have := h3 j ((covered_B D j).2 ⟨a, ha, hj⟩)
        rw [← Bool.not_eq_true, covered_B] at this
        exact this ⟨b, hb, hj'⟩
      rcases Nat.lt_or_ge a.r b.l with h | h
      · exact Or.inl h
      · rcases Nat.lt_or_ge b.r a.l with h' | h'
        · exact Or.inr h'
        · exfalso
          rcases Nat.le_total a.l b.l with h'' | h''
          · exact q b.l ⟨⟨h'', h⟩, ⟨Nat.le_refl _, ib.2.1⟩⟩
          · exact q a.l ⟨⟨Nat.le_refl _, ia.2.1⟩, ⟨h'', h'⟩⟩

theorem covered_append (D E : List Step) (j : Nat) : covered (B (D ++ E)) j = (covered (B D) j || covered (B E) j) := by
  rw [Bool.eq_iff_iff, Bool.or_eq_true, covered_B, covered_B, covered_B]
  constructor
  · rintro ⟨s, hs, h⟩
    rcases List.mem_append.1 hs with hs | hs
    · exact Or.inl ⟨s, hs, h⟩
    · exact Or.inr ⟨s, hs, h⟩
  · rintro (⟨s, hs, h⟩ | ⟨s, hs, h⟩)
    · exact ⟨s, List.mem_append_left _ hs, h⟩
    · exact ⟨s, List.mem_append_right _ hs, h⟩

/-- End of the last phrase. -/
def lastEnd (D : List Step) : Nat := (D.getLast?.map (·.r)).getD 0

theorem jumps_append (f : Nat → R) (E : List Step) : ∀ (D : List Step) (e : Nat),
    jumps f e (D ++ E) = jumps f e D + jumps f ((D.getLast?.map (·.r)).getD e) E
  | [], e => by simp [jumps]
  | d :: D, e => by
    simp only [List.cons_append, jumps]
    rw [jumps_append f E D d.r, List.getLast?_cons]
    cases D.getLast? <;> simp <;> ring

theorem trgLens_append (f : Nat → Nat → Nat → R) (E : List Step) : ∀ (D : List Step) (x : Nat),
    trgLens f x (D ++ E) = trgLens f x D + trgLens f (x + (words D).length) E
  | [], x => by simp [trgLens, words]
  | d :: D, x => by
    simp only [List.cons_append, trgLens]
    rw [trgLens_append f E D]
    rw [show words (d :: D) = d.trg ++ words D by simp [words], List.length_append, ← Nat.add_assoc]; ring

theorem srcLens_append (t : SegmLen R) (n : Nat) (E : List Step) : ∀ (D : List Step) (b : List Nat), srcLens t n b (D ++ E) =
    srcLens t n b D + srcLens t n (b ++ D.map (·.l)) E
  | [], b => by simp [srcLens]
  | d :: D, b => by
    simp only [List.cons_append, srcLens]
    rw [srcLens_append t n E D]
    simp only [List.map_cons, List.append_assoc, List.cons_append, List.nil_append]
    ring

theorem foldl_min_le (x : Nat) : ∀ (l : List Nat) (n : Nat), l.foldl min n ≤ x ↔ n ≤ x ∨ ∃ b ∈ l, b ≤ x
  | [], n => by simp
  | b :: l, n => by
    rw [List.foldl_cons, foldl_min_le x l]
    simp only [List.mem_cons, exists_eq_or_imp]
    rw [← or_assoc]
    have : min n b ≤ x ↔ n ≤ x ∨ b ≤ x := by omega
    rw [this]

theorem nextStart_le (starts : List Nat) (n l x : Nat) : nextStart starts n l ≤ x ↔ n ≤ x ∨ ∃ b ∈ starts, l < b ∧ b ≤ x := by
  unfold nextStart
  rw [foldl_min_le]
  simp only [List.mem_filter, decide_eq_true_eq, and_assoc]

theorem nextStart_cov {D1 D2 : List Step} {n l : Nat} (hc : ∀ j, covered (B D1) j = covered (B D2) j)
    (h1 : ∀ s ∈ D1, s.l ≤ s.r) (hl : covered (B D2) l = false) (x : Nat)
    (h : nextStart (D1.map (·.l)) n l ≤ x) : nextStart (D2.map (·.l)) n l ≤ x := by
  rw [nextStart_le] at h ⊢
  rcases h with h | ⟨b, hb, hlb, hbx⟩
  · exact Or.inl h
  · obtain ⟨s, hs, rfl⟩ := List.mem_map.1 hb
    have := (covered_B D1 s.l).2 ⟨s, hs, Nat.le_refl _, h1 s hs⟩
    rw [hc] at this
    obtain ⟨t, ht, ht1, ht2⟩ := (covered_B D2 s.l).1 this
    refine Or.inr ⟨t.l, List.mem_map.2 ⟨t, ht, rfl⟩, ?_, by omega⟩
    rcases Nat.lt_or_ge l t.l with h' | h'
    · exact h'
    · exfalso
      have : covered (B D2) l = true := (covered_B D2 l).2 ⟨t, ht, h', by omega⟩
      rw [hl] at this; exact absurd this (by simp)

theorem nextStart_eq {D1 D2 : List Step} {n l : Nat} (hc : ∀ j, covered (B D1) j = covered (B D2) j)
    (h1 : ∀ s ∈ D1, s.l ≤ s.r) (h2 : ∀ s ∈ D2, s.l ≤ s.r) (hl : covered (B D2) l = false) :
    nextStart (D1.map (·.l)) n l = nextStart (D2.map (·.l)) n l :=
  Nat.le_antisymm (nextStart_cov (fun j => (hc j).symm) h2 (by rw [hc]; exact hl) _ (Nat.le_refl _))
    (nextStart_cov hc h1 hl _ (Nat.le_refl _))

theorem srcLens_cov (t : SegmLen R) (n : Nat) : ∀ (E D1 D2 : List Step), Disj n (D1 ++ E) → Disj n (D2 ++ E) →
    (∀ j, covered (B D1) j = covered (B D2) j) → srcLens t n (D1.map (·.l)) E = srcLens t n (D2.map (·.l)) E
  | [], _, _, _, _, _ => rfl
  | s :: E, D1, D2, h1, h2, hc => by
    simp only [srcLens]
    have e1 : srcLen1 t n (D1.map (·.l)) s = srcLen1 t n (D2.map (·.l)) s := by
      unfold srcLen1
      cases t with
      | uniform f =>
        dsimp only
        rw [nextStart_eq hc (fun s hs => ((disj_append.1 h1).1.inside s hs).2.1)
          (fun s hs => ((disj_append.1 h2).1.inside s hs).2.1)]
        have q := (disj_append.1 h2).2.2 s.l
        have : covered (B (s :: E)) s.l = true := (covered_B _ _).2 ⟨s, by simp, Nat.le_refl _, (h2.inside s (by simp)).2.1⟩
        cases hd : covered (B D2) s.l with
        | false => rfl
        | true => rw [q hd] at this; exact absurd this (by simp)
      | poisson lp => rfl
      | geom lp => rfl
    have e2 := srcLens_cov t n E (D1 ++ [s]) (D2 ++ [s]) (by simpa using h1) (by simpa using h2)
      (fun j => by rw [covered_append, covered_append, hc])
    rw [List.map_append, List.map_append] at e2
    rw [e1]; congr 1

/-- The language model state of a hypothesis when there is one language model. -/
theorem lmHist_eq (fs : List (R × Feat R)) (src : List Str) (gs : List (List Step)) (h : Hist src.length gs)
    (h1 : numLms fs ≤ 1) (w : R) (m : LM R) (hm : (w, Feat.lm m) ∈ fs) :
    (buildHyp fs src gs).info.lmHist = if srcWords gs.flatten = src.length then m.eosNext (m.addWords (words gs.flatten) m.bos)
      else m.addWords (words gs.flatten) m.bos := by
  obtain ⟨a, b, rfl⟩ := List.append_of_mem hm
  have ha : numLms a = 0 ∧ numLms b = 0 := by
    unfold numLms at h1 ⊢
    rw [List.countP_append, List.countP_cons] at h1
    simp at h1
    omega
  have skip : ∀ (g : Feat R → LMState → LMState), (∀ ft st, (∀ m, ft ≠ .lm m) → g ft st = st) →
      ∀ (l : List (R × Feat R)) (st : LMState), numLms l = 0 → l.foldl (fun st p => g p.2 st) st = st := by
    intro g hg l
    induction l with
    | nil => intro st _; rfl
    | cons p l ih =>
      intro st hl
      unfold numLms at hl
      rw [List.countP_cons] at hl
      rw [List.foldl_cons, hg, ih _ (by unfold numLms; omega)]
      intro m' hm'
      rw [hm'] at hl
      simp at hl
  induction gs using list_snoc_ind with
  | h0 =>
    rw [if_neg (by have := h.pos; simp only [List.flatten_nil, srcWords, List.map_nil, List.sum_nil]; omega)]
    show (nullScore _).1.lmHist = _
    rw [nullScore_eq _ src]
    dsimp only
    rw [List.foldl_append, List.foldl_cons, skip lmNull _ b _ ha.2]
    · rfl
    · intro ft st hft
      cases ft <;> first | rfl | exact absurd rfl (hft _)
  | h1 gs g ih =>
    have hseg : ∀ s ∈ gs.flatten ++ g, s.l ≤ s.r := fun s hs => h.seg s (by simpa using hs)
    rw [buildHyp_snoc]
    unfold extHyp
    dsimp only
    rw [buildHyp_data, ← B_append, incrScore_eq _ src _ _ _ hseg]
    dsimp only
    rw [List.foldl_append, List.foldl_cons, skip (fun ft st => lmAfter ft src (gs.flatten ++ g) st) _ b _ ha.2]
    · simp [lmAfter]
    · intro ft st hft
      cases ft <;> first | rfl | exact absurd rfl (hft _)

theorem part_incr (ft : Feat R) (src : List Str) (D1 D2 E : List Step) (h1 : Disj src.length (D1 ++ E))
    (h2 : Disj src.length (D2 ++ E)) (hc : ∀ j, covered (B D1) j = covered (B D2) j)
    (hl : (words D1).length = (words D2).length) (he : lastEnd D1 = lastEnd D2)
    (hm : ∀ m, ft = .lm m → m.addWords (words D1) m.bos = m.addWords (words D2) m.bos) :
    part ft src (D1 ++ E) - part ft src D1 = part ft src (D2 ++ E) - part ft src D2 ∧
    compl ft (D1 ++ E) = compl ft (D2 ++ E) := by
  cases ft with
  | phr f => simp only [part, compl, List.map_append, List.sum_append, and_true]; ring
  | lm m =>
    have := hm m rfl
    simp only [part, compl, words_append, addWords_append, this, and_true]
    rw [← ngramScore_score, ← ngramScore_score, this]
  | wp m => simp only [part, compl, words_append, List.length_append, hl, and_self]
  | jump f =>
    simp only [part, compl, and_true]
    rw [jumps_append, jumps_append]
    unfold lastEnd at he
    rw [he]; ring
  | srcLen t =>
    simp only [part, compl, and_true]
    rw [srcLens_append, srcLens_append, List.nil_append, List.nil_append, srcLens_cov t _ E D1 D2 h1 h2 hc]; ring
  | trgLen f =>
    simp only [part, compl, and_true]
    rw [trgLens_append, trgLens_append, hl]; ring

theorem hypState_eq (fs : List (R × Feat R)) (src : List Str) (gs : List (List Step)) : hypState (buildHyp fs src gs) =
    ⟨(buildHyp fs src gs).info.lmHist, (words gs.flatten).length, lastEnd gs.flatten, covered (B gs.flatten)⟩ := by
  unfold hypState
  rw [buildHyp_data]
  congr 1
  · rw [B_ntarget]; simp
  · rw [B_srcSegm]
    unfold lastEnd
    rcases List.eq_nil_or_concat gs.flatten with h | ⟨D, d, h⟩
    · rw [h]; rfl
    · rw [h]; simp

/-- **C143 (partial: at most one language model).** Two hypotheses with the same state get the same additional score
from the same extensions, and lead again to the same state. So keeping only the best of the hypotheses with the same
state never loses a better translation. -/
theorem C143_recombination_partial (fs : List (R × Feat R)) (src : List Str) (g1 g2 ext : List (List Step))
    (h1 : Ok src.length g1) (h2 : Ok src.length g2) (hlm : numLms fs ≤ 1)
    (hs : hypState (buildHyp fs src g1) = hypState (buildHyp fs src g2)) (hx : Ok src.length (g1 ++ ext)) :
    Ok src.length (g2 ++ ext) ∧
    (buildHyp fs src (g1 ++ ext)).info.score - (buildHyp fs src g1).info.score =
      (buildHyp fs src (g2 ++ ext)).info.score - (buildHyp fs src g2).info.score ∧
    hypState (buildHyp fs src (g1 ++ ext)) = hypState (buildHyp fs src (g2 ++ ext)) := by
  have hs0 := hs
  rw [hypState_eq, hypState_eq] at hs
  obtain ⟨sl, st, se, sc⟩ := HState.mk.inj hs
  have hc : ∀ j, covered (B g1.flatten) j = covered (B g2.flatten) j := fun j => congrFun sc j
  have hx2 : Ok src.length (g2 ++ ext) := by
    refine ⟨h1.pos, ?_, ?_⟩
    · intro g hg
      rcases List.mem_append.1 hg with hg | hg
      · exact h2.some g hg
      · exact hx.some g (by simp [hg])
    · rw [List.flatten_append, disj_append]
      have := hx.disj
      rw [List.flatten_append, disj_append] at this
      exact ⟨h2.disj, this.2.1, fun j hj => this.2.2 j (by rw [hc]; exact hj)⟩
  refine ⟨hx2, ?_⟩
  rcases List.eq_nil_or_concat ext with rfl | ⟨ext', e, hext⟩
  · simp only [List.append_nil]; exact ⟨by simp, hs0⟩
  have hinc : srcWords g1.flatten ≠ src.length ∧ srcWords g2.flatten ≠ src.length := by
    have a : srcWords g1.flatten ≠ src.length := by
      have hf := (ok_hist hx).fits
      have : 0 < srcWords ext.flatten := by
        have he : e ∈ ext := by rw [hext]; simp
        have hne : ext.flatten ≠ [] := by
          have := hx.some e (by simp [he])
          intro h0
          rw [List.flatten_eq_nil_iff] at h0
          exact this (h0 e he)
        exact srcWords_pos hne fun s hs => (hx.disj.inside s (by rw [List.flatten_append]; simp [hs])).2.1
      rw [List.flatten_append, srcWords_append] at hf
      omega
    refine ⟨a, ?_⟩
    rw [disj_srcWords h2.disj, ← sc, ← disj_srcWords h1.disj]; exact a
  have hw : srcWords (g1.flatten ++ ext.flatten) = srcWords (g2.flatten ++ ext.flatten) := by
    rw [srcWords_append, srcWords_append, disj_srcWords h1.disj, disj_srcWords h2.disj, sc]
  have hmm : ∀ p ∈ fs, ∀ m, p.2 = .lm m → m.addWords (words g1.flatten) m.bos = m.addWords (words g2.flatten) m.bos := by
    rintro ⟨w, ft⟩ hp m rfl
    have a := lmHist_eq fs src g1 (ok_hist h1) hlm w m hp
    have b := lmHist_eq fs src g2 (ok_hist h2) hlm w m hp
    rw [if_neg hinc.1] at a
    rw [if_neg hinc.2] at b
    rw [← a, ← b, sl]
  have d1 := hx.disj
  have d2 := hx2.disj
  rw [List.flatten_append] at d1 d2
  have key : ∀ p ∈ fs, total p.2 src (g1 ++ ext).flatten - total p.2 src g1.flatten =
      total p.2 src (g2 ++ ext).flatten - total p.2 src g2.flatten := by
    intro p hp
    obtain ⟨k1, k2⟩ := part_incr p.2 src g1.flatten g2.flatten ext.flatten d1 d2 hc st se (hmm p hp)
    rw [total_eq, total_eq, total_eq, total_eq, if_neg hinc.1, if_neg hinc.2, List.flatten_append, List.flatten_append, ← hw, ← k2]
    linear_combination k1
  constructor
  · rw [C142_score fs src _ (ok_hist hx), C142_score fs src _ (ok_hist h1), C142_score fs src _ (ok_hist hx2),
      C142_score fs src _ (ok_hist h2), ← sum_map_sub, ← sum_map_sub]
    congr 1
    apply List.map_congr_left
    intro p hp
    have := key p hp
    linear_combination p.1 * this
  · rw [hypState_eq, hypState_eq]
    have l1 : (words (g1 ++ ext).flatten).length = (words (g2 ++ ext).flatten).length := by
      rw [List.flatten_append, List.flatten_append, words_append, words_append, List.length_append, List.length_append, st]
    have l2 : lastEnd (g1 ++ ext).flatten = lastEnd (g2 ++ ext).flatten := by
      rw [List.flatten_append, List.flatten_append]
      unfold lastEnd at se ⊢
      rw [List.getLast?_append, List.getLast?_append]
      cases ext.flatten.getLast? with
      | none => simpa using se
      | some x => rfl
    have l3 : covered (B (g1 ++ ext).flatten) = covered (B (g2 ++ ext).flatten) := by
      funext j
      rw [List.flatten_append, List.flatten_append, covered_append, covered_append, hc]
    have l4 : (buildHyp fs src (g1 ++ ext)).info.lmHist = (buildHyp fs src (g2 ++ ext)).info.lmHist := by
      by_cases hn : ∃ w m, (w, Feat.lm m) ∈ fs
      · obtain ⟨w, m, hm⟩ := hn
        rw [lmHist_eq fs src _ (ok_hist hx) hlm w m hm, lmHist_eq fs src _ (ok_hist hx2) hlm w m hm]
        simp only [List.flatten_append, words_append, addWords_append, hw]
        rw [hmm _ hm m rfl]
      · have no : ∀ (gs : List (List Step)), Hist src.length gs → (buildHyp fs src gs).info.lmHist = [] := by
          have skip : ∀ (g : Feat R → LMState → LMState), (∀ ft st, (∀ m, ft ≠ .lm m) → g ft st = st) →
              ∀ (l : List (R × Feat R)) (st : LMState), (∀ p ∈ l, p ∈ fs) → l.foldl (fun st p => g p.2 st) st = st := by
            intro g hg l
            induction l with
            | nil => intro st _; rfl
            | cons p l ih =>
              intro st hl
              rw [List.foldl_cons, hg, ih _ fun q hq => hl q (by simp [hq])]
              intro m hm
              exact hn ⟨p.1, m, by rw [← hm]; exact hl p (by simp)⟩
          intro gs hgs
          induction gs using list_snoc_ind with
          | h0 =>
            show (nullScore _).1.lmHist = _
            rw [nullScore_eq _ src]
            dsimp only
            refine skip lmNull ?_ fs [] fun p hp => hp
            intro ft st hft
            cases ft <;> first | rfl | exact absurd rfl (hft _)
          | h1 gs g ih =>
            have hseg : ∀ s ∈ gs.flatten ++ g, s.l ≤ s.r := fun s hs => hgs.seg s (by simpa using hs)
            rw [buildHyp_snoc]
            unfold extHyp
            dsimp only
            rw [buildHyp_data, ← B_append, incrScore_eq _ src _ _ _ hseg]
            dsimp only
            rw [skip (fun ft st => lmAfter ft src ((gs.flatten) ++ g) st) ?_ fs _ fun p hp => hp]
            · exact ih (hist_prefix hgs)
            · intro ft st hft
              cases ft <;> first | rfl | exact absurd rfl (hft _)
        rw [no _ (ok_hist hx), no _ (ok_hist hx2)]
    rw [l1, l2, l3, l4]

end

/-- The full claim: any features. -/
def C143_full : Prop := ∀ (fs : List (Int × Feat Int)) (src : List Str) (g1 g2 ext : List (List Step)),
  Ok src.length g1 → Ok src.length g2 → hypState (buildHyp fs src g1) = hypState (buildHyp fs src g2) →
  Ok src.length (g1 ++ ext) →
    (buildHyp fs src (g1 ++ ext)).info.score - (buildHyp fs src g1).info.score =
      (buildHyp fs src (g2 ++ ext)).info.score - (buildHyp fs src g2).info.score

/-- A unigram model: empty states. -/
def lmUni : LM Int := { lmEx with bos := [], next := fun _ _ => [], eosNext := fun _ => [] }

def gA : List (List Step) := [[⟨1, 1, ["x".toList]⟩]]
def gB : List (List Step) := [[⟨1, 1, ["yy".toList]⟩]]
def gX : List (List Step) := [[⟨2, 3, ["z".toList]⟩]]

theorem ok_ex {gs : List (List Step)} (h1 : ∀ g ∈ gs, g ≠ []) (h2 : ∀ s ∈ gs.flatten, 1 ≤ s.l ∧ s.l ≤ s.r ∧ s.r ≤ 3)
    (h3 : gs.flatten.Pairwise fun a b => a.r < b.l ∨ b.r < a.l) : Ok srcEx.length gs := ⟨by decide, h1, ⟨h2, h3⟩⟩

/-- With a bigram model and a unigram model, the state only keeps the (empty) history of the second one: hypotheses with
different last words are recombined although their extensions have different scores. -/
theorem C143_counterexample : ¬ C143_full := by
  intro h
  have := h [(1, .lm lmEx), (1, .lm lmUni)] srcEx gA gB gX (ok_ex (by decide) (by decide) (by decide))
    (ok_ex (by decide) (by decide) (by decide)) (by
      rw [hypState_eq, hypState_eq]
      have e : covered (B gA.flatten) = covered (B gB.flatten) := by
        funext j; unfold covered; rw [B_srcSegm, B_srcSegm]; rfl
      rw [e]
      have e2 : (buildHyp [(1, Feat.lm lmEx), (1, .lm lmUni)] srcEx gA).info.lmHist =
        (buildHyp [(1, Feat.lm lmEx), (1, .lm lmUni)] srcEx gB).info.lmHist := by decide +kernel
      rw [e2]; rfl) (ok_ex (by decide) (by decide) (by decide))
  revert this
  decide +kernel

/-- The hypotheses of the partial theorem hold for different hypotheses: one phrase for two words, or two phrases. -/
theorem C143_example : ∃ g1 g2 : List (List Step), g1.flatten ≠ g2.flatten ∧ Ok srcEx.length g1 ∧ Ok srcEx.length g2 ∧
    numLms fsEx ≤ 1 ∧ hypState (buildHyp fsEx srcEx g1) = hypState (buildHyp fsEx srcEx g2) ∧
    Ok srcEx.length (g1 ++ [[⟨3, 3, ["w".toList]⟩]]) := by
  refine ⟨[[⟨1, 2, ["x".toList, "y".toList]⟩]], [[⟨1, 1, ["zz".toList]⟩], [⟨2, 2, ["y".toList]⟩]], by decide,
    ok_ex (by decide) (by decide) (by decide), ok_ex (by decide) (by decide) (by decide), by decide, ?_,
    ok_ex (by decide) (by decide) (by decide)⟩
  rw [hypState_eq, hypState_eq]
  have e : covered (B [[(⟨1, 2, ["x".toList, "y".toList]⟩ : Step)]].flatten) =
      covered (B [[(⟨1, 1, ["zz".toList]⟩ : Step)], [⟨2, 2, ["y".toList]⟩]].flatten) := by
    funext j
    rw [Bool.eq_iff_iff, covered_B, covered_B]
    simp; omega
  rw [e]
  rfl

end Thot.Feat
