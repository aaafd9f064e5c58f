import Verif.SwLi.Model
import Verif.Feat.Score
/-! C201: the score of a hypothesis of `PhrLocalSwLiTm` depends only on its phrases. -/
set_option linter.unusedSectionVars false
namespace Thot.SwLi
open Thot.StrProc (Str)
open Thot.Search (HypData extend nullData srcPhrase covered)
open Thot.Feat (LM LMState WP SegmLen Step Feat addSteps segm trgPhr newSegms jumpOf numCovered B)
open Thot.Feat.Spec (words srcWords total Hist)

variable {R : Type} [CommRing R]

/-- Specification: the source positions translated by a list of phrases. -/
def translated (D : List Step) (j : Nat) : Bool := D.any fun s => decide (s.l ≤ j) && decide (j ≤ s.r)

/-- Specification: the seven features that this model shares with the log-linear model (C142). -/
def feats (m : Mod R) : List (Feat R) := [.wp m.wp, .lm m.lm, .trgLen m.tlen, .jump m.jump, .srcLen m.slen, .phr m.pts, .phr m.pst]

/-- Specification: the score of the length of the translation: that of the complete translation, or that of the lengths
that are possible with the untranslated positions. -/
def lenScore (m : Mod R) (src : List Str) (D : List Step) : R :=
  if srcWords D = src.length then m.full src.length (words D).length else m.part (translated D) (words D).length

/-- Components of a list of phrases without what is added when the translation is complete. -/
def P8 (m : Mod R) (src : List Str) (D : List Step) : Comps R :=
  ⟨Feat.part (.wp m.wp) src D, Feat.part (.lm m.lm) src D, Feat.part (.trgLen m.tlen) src D, Feat.part (.jump m.jump) src D,
    Feat.part (.srcLen m.slen) src D, Feat.part (.phr m.pts) src D, Feat.part (.phr m.pst) src D, m.part (translated D) (words D).length⟩

def Comps.comb (c a b : Comps R) : Comps R :=
  ⟨c.wpen + (a.wpen - b.wpen), c.lmodel + (a.lmodel - b.lmodel), c.tsegm + (a.tsegm - b.tsegm), c.sjump + (a.sjump - b.sjump),
    c.ssegm + (a.ssegm - b.ssegm), c.pts + (a.pts - b.pts), c.pst + (a.pst - b.pst), c.len + (a.len - b.len)⟩

theorem Comps.ext' {a b : Comps R} (h1 : a.wpen = b.wpen) (h2 : a.lmodel = b.lmodel) (h3 : a.tsegm = b.tsegm) (h4 : a.sjump = b.sjump)
    (h5 : a.ssegm = b.ssegm) (h6 : a.pts = b.pts) (h7 : a.pst = b.pst) (h8 : a.len = b.len) : a = b := by
  cases a; cases b; simp_all

theorem covered_B (D : List Step) : covered (B D) = translated D := by
  funext j
  unfold covered translated
  rw [Feat.B_srcSegm, List.any_map]
  rfl

theorem translated_snoc (D : List Step) (g : Step) : translated (D ++ [g]) = setKey (translated D) g.l g.r := by
  funext j
  simp [translated, setKey, List.any_append]

theorem iter_eq (m : Mod R) (src : List Str) (P : List Step) (g : Step) (G : List Step) (hg : g.l ≤ g.r) (c : Comps R) :
    iter m src (B (P ++ g :: G)) ⟨c, m.lm.addWords (words P) m.lm.bos, (words P).length, translated P⟩ P.length =
      ⟨c.comb (P8 m src (P ++ [g])) (P8 m src P), m.lm.addWords (words (P ++ [g])) m.lm.bos, (words (P ++ [g])).length, translated (P ++ [g])⟩ := by
  unfold iter
  simp only [Feat.trgPhr_at, Feat.segm_at, Feat.jumpOf_at, Feat.lgProb_at _ _ _ _ _ hg, Feat.ngramScore_score, Feat.ngramScore_state]
  rw [translated_snoc]
  have e1 : words (P ++ [g]) = words P ++ g.trg := by rw [Feat.words_append, Feat.words_single]
  refine congr (congr (congr (congrArg LSt.mk ?_) ?_) ?_) rfl
  · unfold Comps.comb P8
    simp only [Feat.part]
    apply Comps.ext'
    · simp only [e1, List.length_append]; ring
    · simp only [e1]
    · simp only [Feat.trgLens_snoc, Nat.zero_add]; ring
    · simp only [Feat.jumps_snoc]; ring
    · simp only [Feat.srcLens_snoc, List.nil_append]; ring
    · simp
    · simp
    · simp only [e1, List.length_append, translated_snoc]; ring
  · rw [e1, Feat.addWords_append]
  · rw [e1, List.length_append]

theorem comb_comb (c a b d : Comps R) : (c.comb a b).comb d a = c.comb d b := by
  apply Comps.ext' <;> simp only [Comps.comb] <;> ring

theorem loop_eq (m : Mod R) (src : List Str) : ∀ (G P : List Step) (c : Comps R), (∀ s ∈ G, s.l ≤ s.r) →
    (List.range' P.length G.length).foldl (iter m src (B (P ++ G))) ⟨c, m.lm.addWords (words P) m.lm.bos, (words P).length, translated P⟩ =
      ⟨c.comb (P8 m src (P ++ G)) (P8 m src P), m.lm.addWords (words (P ++ G)) m.lm.bos, (words (P ++ G)).length, translated (P ++ G)⟩
  | [], P, c, _ => by
    simp only [List.append_nil, List.length_nil, List.range'_zero, List.foldl_nil]
    congr 1
    apply Comps.ext' <;> simp only [Comps.comb] <;> ring
  | g :: G, P, c, h => by
    rw [List.length_cons, List.range'_succ, List.foldl_cons, iter_eq m src P g G (h g (List.mem_cons_self ..))]
    have ih := loop_eq m src G (P ++ [g]) (c.comb (P8 m src (P ++ [g])) (P8 m src P)) (fun s hs => h s (List.mem_cons_of_mem _ hs))
    rw [List.length_append, List.append_assoc, List.singleton_append] at ih
    rw [show P.length + 1 = P.length + [g].length from rfl, ih, comb_comb]

/-- Specification of the components of an extension: the difference of the values for the two lists of phrases. -/
def values (m : Mod R) (src : List Str) (D : List Step) : Comps R :=
  ⟨total (.wp m.wp) src D, total (.lm m.lm) src D, total (.trgLen m.tlen) src D, total (.jump m.jump) src D,
    total (.srcLen m.slen) src D, total (.phr m.pts) src D, total (.phr m.pst) src D, lenScore m src D⟩

/-- State of the language model after the phrases. -/
def stateOf (m : Mod R) (src : List Str) (D : List Step) : LMState :=
  if srcWords D = src.length then m.lm.eosNext (m.lm.addWords (words D) m.lm.bos) else m.lm.addWords (words D) m.lm.bos

theorem incr_eq (m : Mod R) (src : List Str) (P G : List Step) (sc : R) (hP : ∀ s ∈ P, s.l ≤ s.r) (hG : ∀ s ∈ G, s.l ≤ s.r) (hn : srcWords P ≠ src.length) :
    incrScore m src ⟨sc, m.lm.addWords (words P) m.lm.bos, B P⟩ (B (P ++ G)) =
      (⟨sc + (zeroC.comb (values m src (P ++ G)) (values m src P)).total, stateOf m src (P ++ G), B (P ++ G)⟩,
        zeroC.comb (values m src (P ++ G)) (values m src P)) := by
  have hseg : ∀ s ∈ P ++ G, s.l ≤ s.r := by
    intro s hs
    rcases List.mem_append.1 hs with h | h
    · exact hP s h
    · exact hG s h
  have hl := loop_eq m src G P zeroC hG
  unfold incrScore
  rw [Feat.newSegms_B, covered_B, show (B P).ntarget.length - 1 = (words P).length by rw [Feat.B_ntarget]; simp]
  simp only
  rw [hl, Feat.numCovered_B _ hseg, Feat.numCovered_B _ hP]
  by_cases hc : srcWords (P ++ G) = src.length
  · rw [if_pos ⟨hc, hn⟩]
    have e : (close m src.length ⟨zeroC.comb (P8 m src (P ++ G)) (P8 m src P), m.lm.addWords (words (P ++ G)) m.lm.bos,
        (words (P ++ G)).length, translated (P ++ G)⟩).c = zeroC.comb (values m src (P ++ G)) (values m src P) := by
      unfold close Comps.comb values P8 lenScore
      simp only [Feat.total_eq, if_pos hc, if_neg hn, Feat.compl, Feat.part]
      apply Comps.ext' <;> ring
    rw [e]
    simp only [close, stateOf, if_pos hc]
  · rw [if_neg (fun hh => hc hh.1)]
    have e : zeroC.comb (P8 m src (P ++ G)) (P8 m src P) = zeroC.comb (values m src (P ++ G)) (values m src P) := by
      unfold Comps.comb values P8 lenScore
      simp only [Feat.total_eq, if_neg hc, if_neg hn, add_zero]
    simp only [e, stateOf, if_neg hc]

theorem build_snoc (m : Mod R) (src : List Str) (gs : List (List Step)) (g : List Step) :
    build m src (gs ++ [g]) = (incrScore m src (build m src gs) (addSteps (build m src gs).data g)).1 := by simp [build]

theorem build_eq (m : Mod R) (src : List Str) (gs : List (List Step)) (h : Hist src.length gs) :
    build m src gs = ⟨(values m src gs.flatten).total, stateOf m src gs.flatten, B gs.flatten⟩ := by
  induction gs using Feat.list_snoc_ind with
  | h0 =>
    have h0 : ¬ srcWords ([] : List Step) = src.length := by
      have := h.pos
      simp only [srcWords, List.map_nil, List.sum_nil]; omega
    have e : (values m src []).total = 0 + m.wp.sum 0 + m.part (covered nullData) 0 := by
      unfold values Comps.total lenScore
      simp only [Feat.total_eq, if_neg h0, Feat.part]
      rw [show covered nullData = translated [] from covered_B []]
      simp [words, Feat.Spec.lmWords, Feat.Spec.trgLens, Feat.Spec.jumps, Feat.Spec.srcLens]
    simp only [List.flatten_nil, e, stateOf, if_neg h0]
    rfl
  | h1 gs g ih =>
    have hb := Feat.hist_before h
    have hseg : ∀ s ∈ gs.flatten ++ g, s.l ≤ s.r := fun s hs => h.seg s (by simpa using hs)
    rw [build_snoc, ih (Feat.hist_prefix h)]
    simp only [stateOf, if_neg hb]
    rw [← Feat.B_append, incr_eq m src gs.flatten g _ (fun s hs => hseg s (List.mem_append_left _ hs))
      (fun s hs => hseg s (List.mem_append_right _ hs)) hb]
    simp only [List.flatten_append, List.flatten_cons, List.flatten_nil, List.append_nil, stateOf]
    congr 1
    simp only [Comps.total, Comps.comb, zeroC]
    ring

/-- C201: however the extensions are grouped, the score of a hypothesis of `n ≥ 1` source words is the sum of the values of
the seven features for its phrases (word penalty and language model with the end of sentence once complete) plus the score
of the length of the translation. -/
theorem C201_score (m : Mod R) (src : List Str) (gs : List (List Step)) (h : Hist src.length gs) :
    (build m src gs).data = addSteps nullData gs.flatten ∧
    (build m src gs).score = ((feats m).map fun ft => total ft src gs.flatten).sum + lenScore m src gs.flatten := by
  rw [build_eq m src gs h]
  refine ⟨rfl, ?_⟩
  simp only [feats, values, Comps.total, List.map_cons, List.map_nil, List.sum_cons, List.sum_nil]
  ring

/-- C201: the components returned for an extension are the differences between the values for the two hypotheses. -/
theorem C201_comps (m : Mod R) (src : List Str) (gs : List (List Step)) (g : List Step) (h : Hist src.length (gs ++ [g])) :
    (incrScore m src (build m src gs) (addSteps (build m src gs).data g)).2 =
      zeroC.comb (values m src (gs.flatten ++ g)) (values m src gs.flatten) := by
  have hb := Feat.hist_before h
  have hseg : ∀ s ∈ gs.flatten ++ g, s.l ≤ s.r := fun s hs => h.seg s (by simpa using hs)
  rw [build_eq m src gs (Feat.hist_prefix h)]
  simp only [stateOf, if_neg hb]
  rw [← Feat.B_append, incr_eq m src gs.flatten g _ (fun s hs => hseg s (List.mem_append_left _ hs))
      (fun s hs => hseg s (List.mem_append_right _ hs)) hb]

/-- C201: the model gives the score of the log-linear model (C142) with the same functions and unit weights, plus that of
the length. -/
theorem C201_loglinear (m : Mod R) (src : List Str) (gs : List (List Step)) (h : Hist src.length gs) :
    (build m src gs).score = (Feat.buildHyp ((feats m).map fun ft => (1, ft)) src gs).info.score + lenScore m src gs.flatten := by
  rw [(C201_score m src gs h).2, (Feat.comps_eq _ src gs h).1]
  simp [feats, Function.comp_def]

/-- Two phrases, in one extension or in two, for a sentence of three words. -/
def exMod : Mod Int where
  wp := ⟨fun n => -n, fun n => -n - 5⟩
  lm := ⟨fun _ => true, fun w => w.length, 0, [], [7], fun w st => -(w : Int) - st.length, fun w st => w :: st, fun st => -(st.length : Int), fun st => st⟩
  tlen := fun a b _ => -(a : Int) + b
  jump := fun j => -(j : Int)
  slen := .poisson (fun a b => -(a : Int) * b)
  pts := fun s t => -(s.length : Int) - t.length
  pst := fun s _ => -(s.length : Int)
  part := fun k n => (if k 1 then -1 else -3) - (n : Int)
  full := fun s t => -(s : Int) * t

def exSrc : List Str := ["a".toList, "b".toList, "c".toList]
def exSteps : List Step := [⟨2, 3, ["x".toList]⟩, ⟨1, 1, ["y".toList, "zz".toList]⟩]

example : Hist exSrc.length [exSteps] ∧ Hist exSrc.length [[⟨2, 3, ["x".toList]⟩], [⟨1, 1, ["y".toList, "zz".toList]⟩]] ∧
    (build exMod exSrc [exSteps]).score = (build exMod exSrc [[⟨2, 3, ["x".toList]⟩], [⟨1, 1, ["y".toList, "zz".toList]⟩]]).score ∧
    (build exMod exSrc [exSteps]).score ≠ 0 := by
  refine ⟨⟨by decide, by decide, by decide, by decide⟩, ⟨by decide, by decide, by decide, by decide⟩, by decide +kernel, by decide +kernel⟩

end Thot.SwLi
