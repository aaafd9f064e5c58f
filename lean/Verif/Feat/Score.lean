import Verif.Feat.Lemmas

/-! Property C142: the score of a hypothesis is the weighted sum of the values of the features for its phrases, however
the extensions were grouped; the component vectors add up to these values. -/
set_option linter.unusedSectionVars false
namespace Thot.Feat
open Thot.StrProc (Str)
open Thot.Search (HypData extend nullData)
open Spec

section
variable {R : Type} [CommRing R]

theorem overFeats_eq (g : R → Feat R → Info R → Info R × R) (u : Feat R → R) (lmA : Feat R → LMState → LMState)
    (hg : ∀ w ft inf, g w ft inf = (⟨inf.score + w * u ft, lmA ft inf.lmHist⟩, u ft)) :
    ∀ (fs : List (R × Feat R)) (inf : Info R), overFeats g fs inf =
      (⟨inf.score + (fs.map fun p => p.1 * u p.2).sum, fs.foldl (fun st p => lmA p.2 st) inf.lmHist⟩, fs.map fun p => u p.2)
  | [], inf => by simp [overFeats]
  | (w, ft) :: fs, inf => by
    simp only [overFeats, hg, overFeats_eq g u lmA hg fs, List.map_cons, List.sum_cons, List.foldl_cons]
    congr 2; ring

/-- State of the null hypothesis after a feature. -/
def lmNull (ft : Feat R) (old : LMState) : LMState := match ft with | .lm m => m.bos | _ => old

theorem nullScore_eq (fs : List (R × Feat R)) (src : List Str) : nullScore fs =
    (⟨(fs.map fun p => p.1 * part p.2 src []).sum, fs.foldl (fun st p => lmNull p.2 st) []⟩, fs.map fun p => part p.2 src []) := by
  unfold nullScore
  rw [overFeats_eq _ (fun ft => part ft src []) (fun ft st => lmNull ft st)]
  · simp
  · intro w ft inf
    cases ft <;> simp [Feat.null, part, lmNull, words, jumps, srcLens, trgLens, lmWords]

/-- What an extension adds to a feature. -/
def incr (ft : Feat R) (src : List Str) (P G : List Step) : R :=
  part ft src (P ++ G) - part ft src P + if srcWords (P ++ G) = src.length then compl ft (P ++ G) else 0

theorem incrScore_eq (fs : List (R × Feat R)) (src : List Str) (inf : Info R) (P G : List Step)
    (hseg : ∀ s ∈ P ++ G, s.l ≤ s.r) : incrScore fs src inf (B P) (B (P ++ G)) =
      (⟨inf.score + (fs.map fun p => p.1 * incr p.2 src P G).sum,
        fs.foldl (fun st p => lmAfter p.2 src (P ++ G) st) inf.lmHist⟩, fs.map fun p => incr p.2 src P G) := by
  unfold incrScore
  rw [overFeats_eq _ (fun ft => incr ft src P G) (fun ft st => lmAfter ft src (P ++ G) st)]
  intro w ft inf
  exact ext_eq ft src w inf P G hseg

theorem buildHyp_snoc (fs : List (R × Feat R)) (src : List Str) (gs : List (List Step)) (g : List Step) :
    buildHyp fs src (gs ++ [g]) = extHyp fs src (buildHyp fs src gs) g := by simp [buildHyp]

theorem buildHyp_data (fs : List (R × Feat R)) (src : List Str) (gs : List (List Step)) :
    (buildHyp fs src gs).data = B gs.flatten := by
  induction gs using list_snoc_ind with
  | h0 => rfl
  | h1 gs g ih =>
    rw [buildHyp_snoc, List.flatten_append, B_append, ← ih]
    simp [extHyp]

theorem hist_prefix {n : Nat} {gs : List (List Step)} {g : List Step} (h : Hist n (gs ++ [g])) : Hist n gs where
  pos := h.pos
  some := fun x hx => h.some x (by simp [hx])
  seg := fun s hs => h.seg s (by rw [List.flatten_append]; exact List.mem_append_left _ hs)
  fits := by have := h.fits; rw [List.flatten_append, srcWords_append] at this; omega

theorem srcWords_pos {g : List Step} (hg : g ≠ []) (hs : ∀ s ∈ g, s.l ≤ s.r) : 0 < srcWords g := by
  cases g with
  | nil => exact absurd rfl hg
  | cons s g =>
    have := hs s (by simp)
    simp only [srcWords, List.map_cons, List.sum_cons]; omega

theorem hist_before {n : Nat} {gs : List (List Step)} {g : List Step} (h : Hist n (gs ++ [g])) : srcWords gs.flatten ≠ n := by
  have h1 := h.fits
  have h2 : 0 < srcWords g := srcWords_pos (h.some g (by simp)) fun s hs => h.seg s (by
    rw [List.flatten_append]; exact List.mem_append_right _ (by simpa using hs))
  rw [List.flatten_append, srcWords_append] at h1
  simp at h1
  omega

theorem incr_eq (ft : Feat R) (src : List Str) {gs : List (List Step)} {g : List Step} (h : Hist src.length (gs ++ [g])) :
    incr ft src gs.flatten g = total ft src (gs ++ [g]).flatten - total ft src gs.flatten := by
  rw [total_eq, total_eq, if_neg (hist_before h)]
  simp only [List.flatten_append, List.flatten_cons, List.flatten_nil, List.append_nil, incr]
  ring

theorem sum_map_sub {α : Type} (f g : α → R) : ∀ l : List α, (l.map fun a => f a - g a).sum = (l.map f).sum - (l.map g).sum
  | [] => by simp
  | a :: l => by simp only [List.map_cons, List.sum_cons, sum_map_sub f g l]; ring

theorem comps_eq (fs : List (R × Feat R)) (src : List Str) (gs : List (List Step)) (h : Hist src.length gs) :
    (buildHyp fs src gs).info.score = (fs.map fun p => p.1 * total p.2 src gs.flatten).sum ∧
    (∀ v ∈ (buildHyp fs src gs).comps, v.length = fs.length) ∧
    ∀ (i : Nat) (w : R) (ft : Feat R), fs[i]? = some (w, ft) →
      ((buildHyp fs src gs).comps.map fun v => v.getD i 0).sum = total ft src gs.flatten := by
  induction gs using list_snoc_ind with
  | h0 =>
    have hz : ∀ ft : Feat R, total ft src ([] : List (List Step)).flatten = part ft src [] := by
      intro ft
      rw [total_eq, if_neg]
      · simp
      · have := h.pos; simp only [List.flatten_nil, srcWords, List.map_nil, List.sum_nil]; omega
    refine ⟨?_, ?_, ?_⟩
    · show (nullScore fs).1.score = _
      rw [nullScore_eq fs src]; simp only [hz]
    · intro v hv
      have : v = (nullScore fs).2 := by simpa [buildHyp, nullHyp] using hv
      rw [this, nullScore_eq fs src]; simp
    · intro i w ft hi
      show (([(nullScore fs).2] : List (List R)).map fun v => v.getD i 0).sum = _
      rw [nullScore_eq fs src, hz]
      simp [List.getD_eq_getElem?_getD, hi]
  | h1 gs g ih =>
    obtain ⟨ih1, ih2, ih3⟩ := ih (hist_prefix h)
    have hseg : ∀ s ∈ gs.flatten ++ g, s.l ≤ s.r := fun s hs => h.seg s (by simpa using hs)
    have e : incrScore fs src (buildHyp fs src gs).info (buildHyp fs src gs).data (addSteps (buildHyp fs src gs).data g) =
        (⟨(buildHyp fs src gs).info.score + (fs.map fun p => p.1 * incr p.2 src gs.flatten g).sum,
          fs.foldl (fun st p => lmAfter p.2 src (gs.flatten ++ g) st) (buildHyp fs src gs).info.lmHist⟩,
         fs.map fun p => incr p.2 src gs.flatten g) := by
      rw [buildHyp_data, ← B_append]; exact incrScore_eq fs src _ _ _ hseg
    rw [buildHyp_snoc]
    unfold extHyp
    dsimp only
    rw [e]
    refine ⟨?_, ?_, ?_⟩
    · dsimp only
      rw [ih1]
      have : (fs.map fun p => p.1 * incr p.2 src gs.flatten g).sum =
          (fs.map fun p => p.1 * total p.2 src (gs ++ [g]).flatten).sum - (fs.map fun p => p.1 * total p.2 src gs.flatten).sum := by
        rw [← sum_map_sub]
        congr 1
        apply List.map_congr_left
        intro p _
        rw [incr_eq p.2 src h]; ring
      rw [this]; ring
    · intro v hv
      rcases List.mem_append.1 hv with hv | hv
      · exact ih2 v hv
      · rw [List.mem_singleton.1 hv]; simp
    · intro i w ft hi
      rw [List.map_append, List.sum_append, ih3 i w ft hi]
      simp only [List.map_cons, List.map_nil, List.sum_cons, List.sum_nil]
      rw [List.getD_eq_getElem?_getD, List.getElem?_map, hi]
      simp only [Option.map_some, Option.getD_some, incr_eq ft src h]
      ring

/-- **C142.** For any features and weights and any sequence of extensions of a source sentence, the score of the
hypothesis is the sum of each weight times the value of the feature for the phrases of the translation. -/
theorem C142_score (fs : List (R × Feat R)) (src : List Str) (groups : List (List Step)) (h : Hist src.length groups) :
    (buildHyp fs src groups).info.score = (fs.map fun p => p.1 * total p.2 src groups.flatten).sum :=
  (comps_eq fs src groups h).1

/-- **C142.** The component vectors returned while the hypothesis was built have one entry per feature, and the sum of
the entries of each feature is its value for the phrases of the translation. -/
theorem C142_components (fs : List (R × Feat R)) (src : List Str) (groups : List (List Step)) (h : Hist src.length groups) :
    (∀ v ∈ (buildHyp fs src groups).comps, v.length = fs.length) ∧
    ∀ (i : Nat) (w : R) (ft : Feat R), fs[i]? = some (w, ft) →
      ((buildHyp fs src groups).comps.map fun v => v.getD i 0).sum = total ft src groups.flatten :=
  (comps_eq fs src groups h).2

/-- **C142.** The score and the data do not depend on how the phrases were grouped in extensions. -/
theorem C142_grouping (fs : List (R × Feat R)) (src : List Str) (g1 g2 : List (List Step)) (h1 : Hist src.length g1)
    (h2 : Hist src.length g2) (he : g1.flatten = g2.flatten) :
    (buildHyp fs src g1).info.score = (buildHyp fs src g2).info.score ∧ (buildHyp fs src g1).data = (buildHyp fs src g2).data := by
  rw [C142_score fs src g1 h1, C142_score fs src g2 h2, buildHyp_data, buildHyp_data, he]
  exact ⟨rfl, rfl⟩

/-! ### Example -/

/-- A bigram language model over the integers. -/
def lmEx : LM Int where
  known := fun w => !w.isEmpty
  code := fun w => w.length
  unk := 0
  empty := []
  bos := [0]
  lgp := fun w st => -((w : Int) + 2 * (st.getD 0 0))
  next := fun w _ => [w]
  eos := fun st => -3 * (st.getD 0 0 : Int)
  eosNext := fun _ => [0]

/-- One feature of each kind. -/
def fsEx : List (Int × Feat Int) :=
  [(2, .lm lmEx), (3, .wp ⟨fun k => -(k : Int), fun k => -2 * (k : Int)⟩), (1, .phr fun s t => -(s.length * 7 + t.length : Int)),
   (5, .jump fun k => -(k : Int)), (1, .srcLen (.uniform fun k => -(k : Int))), (1, .trgLen fun a b _ => -((a : Int) * 10 + b))]

def srcEx : List Str := ["a".toList, "b".toList, "c".toList]
def groupsEx : List (List Step) := [[⟨2, 3, ["xx".toList, "y".toList]⟩], [⟨1, 1, ["zzz".toList]⟩]]
def groupsEx2 : List (List Step) := [[⟨2, 3, ["xx".toList, "y".toList]⟩, ⟨1, 1, ["zzz".toList]⟩]]

/-- The hypotheses hold for a translation in two extensions and for the same translation in one. -/
theorem C142_example : Hist srcEx.length groupsEx ∧ Hist srcEx.length groupsEx2 ∧ groupsEx.flatten = groupsEx2.flatten :=
  ⟨⟨by decide, by decide, by decide, by decide⟩, ⟨by decide, by decide, by decide, by decide⟩, rfl⟩

example : (buildHyp fsEx srcEx groupsEx).info = ⟨-151, [0]⟩ := by decide +kernel
example : (buildHyp fsEx srcEx groupsEx).comps = [[0, 0, 0, 0, 0, 0], [-7, -4, -16, -1, -2, -20], [-14, 1, -8, -3, -2, -32]] := by
  decide +kernel

end
end Thot.Feat
