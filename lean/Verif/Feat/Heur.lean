import Verif.Feat.HeurModel

/-! Properties C144 (distortion heuristic), C145 and C146 (language model heuristic with a reference and with a prefix)
and C147 (equivalence classes and order of the states). -/
set_option linter.unusedSectionVars false
namespace Thot.Feat
open Thot.StrProc (Str)
open Thot.Meta (Segm)
open Thot.Search (HypData extend nullData covered)
open Spec

section
variable {R : Type} [CommRing R]

/-! ### C144 -/

/-- The jumps made when each gap is translated with one phrase, from left to right. -/
def Spec.realJumps : Nat → List Segm → List Nat
  | _, [] => []
  | e, g :: gs => ((g.1 : Int) - (e + 1)).natAbs :: Spec.realJumps g.2 gs

/-- The score of these jumps is what the jump feature adds when the hypothesis is completed in that way. -/
theorem realJumps_spec (f : Nat → R) : ∀ (gaps : List Segm) (e : Nat),
    jumps f e (gaps.map fun g => ⟨g.1, g.2, []⟩) = ((realJumps e gaps).map f).sum
  | [], _ => rfl
  | g :: gs, e => by
    simp only [List.map_cons, jumps, realJumps, List.sum_cons]
    rw [realJumps_spec f gs]

/-- Forward and backward steps of the heuristic: where each gap starts with respect to the previous position. -/
def Spec.forwards : Nat → List Segm → List Bool
  | _, [] => []
  | e, g :: gs => decide (e < g.1) :: Spec.forwards g.2 gs

/-- **C144 (partial).** The distortion heuristic is the sum over the jump features, without their weights, of the scores
of one jump per gap; every forward jump is one more, and every backward jump one less, than the jump that the feature
scores when the gaps are translated from left to right. -/
theorem C144_distortion_partial (fs : List (R × Feat R)) (gaps : List Segm) (last : Nat) :
    ∃ js : List Nat, distHeur fs gaps last = (fs.map fun p => match p.2 with | .jump f => (js.map f).sum | _ => 0).sum ∧
      js.length = gaps.length ∧
      ∀ (k a b : Nat) (fw : Bool), js[k]? = some a → (realJumps last gaps)[k]? = some b → (forwards last gaps)[k]? = some fw →
        if fw then a = b + 1 else a + 1 = b := by
  refine ⟨minJumps last gaps, rfl, ?_, ?_⟩
  · clear fs
    induction gaps generalizing last with
    | nil => rfl
    | cons g gs ih => simp [minJumps, ih]
  · induction gaps generalizing last with
    | nil => intro k a b fw h; simp [minJumps] at h
    | cons g gs ih =>
      intro k a b fw ha hb hf
      cases k with
      | zero =>
        simp only [minJumps, realJumps, forwards, List.getElem?_cons_zero, Option.some.injEq] at ha hb hf
        subst ha hb hf
        by_cases h : last < g.1
        · simp only [h, decide_true, if_true]; rw [if_neg (by omega)]; omega
        · simp only [h, decide_false]
          simp only [Bool.false_eq_true, if_false]
          split <;> omega
      | succ k =>
        simp only [minJumps, realJumps, forwards, List.getElem?_cons_succ] at ha hb hf
        exact ih g.2 k a b fw ha hb hf

/-- The full claim: the distortion heuristic is the weighted score of the jumps made by translating the gaps from left to
right. -/
def C144_full : Prop := ∀ (fs : List (Int × Feat Int)) (gaps : List Segm) (last : Nat),
  distHeur fs gaps last = (fs.map fun p => match p.2 with | .jump f => p.1 * ((realJumps last gaps).map f).sum | _ => 0).sum

/-- Words 1 and 2 translated, words 3 to 5 left: the heuristic charges a jump of 1 although translating on needs none. -/
theorem C144_counterexample : ¬ C144_full := by
  intro h
  have := h [(1, .jump fun k => -(k : Int))] [(3, 5)] 2
  revert this
  decide +kernel

/-- The heuristic is not admissible: the completion that translates the last gap has a strictly better score. -/
theorem C144_not_admissible : ∃ (fs : List (Int × Feat Int)) (src : List Str) (g ext : List (List Step)),
    Ok src.length (g ++ ext) ∧ distHeur fs (Thot.Search.extractGaps src.length (covered (buildHyp fs src g).data))
        (lastEnd g.flatten) < (buildHyp fs src (g ++ ext)).info.score - (buildHyp fs src g).info.score := by
  refine ⟨[(1, .jump fun k => -(k : Int))], srcEx, [[⟨1, 1, ["x".toList]⟩]], [[⟨2, 3, ["y".toList]⟩]],
    ok_ex (by decide) (by decide) (by decide), ?_⟩
  decide +kernel

example : ∃ (js : List Nat), js = minJumps 4 [(2, 3), (6, 8)] ∧ js = [2, 3] ∧ realJumps 4 [(2, 3), (6, 8)] = [3, 2] :=
  ⟨_, rfl, by decide, by decide⟩

/-! ### C145, C146 -/

/-- Language models with their weights. -/
def Spec.lms (fs : List (R × Feat R)) : List (R × LM R) :=
  fs.filterMap fun p => match p.2 with | .lm m => some (p.1, m) | _ => none

theorem trgSentLoop_eq (m : LM R) (w : R) : ∀ (xs pre : List Str) (fin : R), fin = w * lmWords m pre →
    trgSentLoop m w xs (m.addWords pre m.bos) fin =
      ((List.range xs.length).map fun i => w * lmWords m (pre ++ xs.take (i + 1))) ++
        [w * lmWords m (pre ++ xs) + m.eos (m.addWords (pre ++ xs) m.bos)]
  | [], pre, fin, h => by simp [trgSentLoop, h]
  | x :: xs, pre, fin, h => by
    unfold trgSentLoop
    dsimp only
    have e1 : (m.ngramScore [x] (m.addWords pre m.bos)).2 = m.addWords (pre ++ [x]) m.bos := by
      rw [ngramScore_state, addWords_append]
    have e2 : fin + w * (m.ngramScore [x] (m.addWords pre m.bos)).1 = w * lmWords m (pre ++ [x]) := by
      rw [ngramScore_score, h]; ring
    rw [e1, e2, trgSentLoop_eq m w xs (pre ++ [x]) _ rfl, List.length_cons, List.range_succ_eq_map]
    simp [List.map_map, Function.comp_def]

theorem scoreTrgSentence_eq (m : LM R) (w : R) (sent : List Str) : scoreTrgSentence m w sent =
    ((List.range sent.length).map fun i => w * lmWords m (sent.take (i + 1))) ++
      [w * lmWords m sent + m.eos (m.addWords sent m.bos)] := by
  have := trgSentLoop_eq m w sent [] 0 (by simp [lmWords])
  simpa [scoreTrgSentence, LM.addWords] using this

theorem addVec_nil (ys : List R) : addVec [] ys = ys := by cases ys <;> rfl

theorem addVec_zip : ∀ (xs ys : List R), xs.length = ys.length → addVec xs ys = List.zipWith (· + ·) xs ys
  | [], [], _ => rfl
  | x :: xs, y :: ys, h => by
    simp only [addVec, List.zipWith_cons_cons]
    rw [addVec_zip xs ys (by simpa using h)]
  | [], _ :: _, h => by simp at h
  | _ :: _, [], h => by simp at h

/-- The scores of a sentence, as a function of the position. -/
def sentAt (m : LM R) (w : R) (sent : List Str) (i : Nat) : R :=
  if i < sent.length then w * lmWords m (sent.take (i + 1)) else w * lmWords m sent + m.eos (m.addWords sent m.bos)

theorem scoreTrgSentence_map (m : LM R) (w : R) (sent : List Str) : scoreTrgSentence m w sent =
    (List.range (sent.length + 1)).map (sentAt m w sent) := by
  rw [scoreTrgSentence_eq, List.range_succ, List.map_append]
  congr 1
  · apply List.map_congr_left
    intro i hi
    rw [List.mem_range] at hi
    simp [sentAt, hi]
  · simp [sentAt]

theorem zipWith_map_range (f g : Nat → R) (k : Nat) :
    List.zipWith (· + ·) ((List.range k).map f) ((List.range k).map g) = (List.range k).map fun i => f i + g i := by
  rw [List.zipWith_map]
  simp [List.zipWith_self]

theorem heurVec_aux (sent : List Str) : ∀ (fs : List (R × Feat R)) (acc : List R) (c : Nat → R),
    (acc = (List.range (sent.length + 1)).map c) →
    fs.foldl (heurStep sent) acc =
      (List.range (sent.length + 1)).map fun i => c i + ((lms fs).map fun q => sentAt q.2 q.1 sent i).sum
  | [], acc, c, h => by simp [lms, h]
  | (w, ft) :: fs, acc, c, h => by
    rw [List.foldl_cons]
    cases ft with
    | lm m =>
      rw [show heurStep sent acc (w, Feat.lm m) = addVec acc (scoreTrgSentence m w sent) from rfl, heurVec_aux sent fs _ (fun i => c i + sentAt m w sent i)]
      · apply List.map_congr_left
        intro i _
        simp only [lms, List.filterMap_cons, List.map_cons, List.sum_cons]; ring
      · rw [h, scoreTrgSentence_map, addVec_zip _ _ (by simp), zipWith_map_range]
    | phr f => exact heurVec_aux sent fs acc c h
    | wp m => exact heurVec_aux sent fs acc c h
    | jump f => exact heurVec_aux sent fs acc c h
    | srcLen t => exact heurVec_aux sent fs acc c h
    | trgLen f => exact heurVec_aux sent fs acc c h

theorem heurVec_eq (sent : List Str) : ∀ (fs : List (R × Feat R)), heurVec fs sent =
    if (lms fs).isEmpty then [] else
      (List.range (sent.length + 1)).map fun i => ((lms fs).map fun q => sentAt q.2 q.1 sent i).sum
  | [] => by simp [heurVec, lms]
  | (w, ft) :: fs => by
    unfold heurVec
    rw [List.foldl_cons]
    cases ft with
    | lm m =>
      rw [show heurStep sent [] (w, Feat.lm m) = addVec [] (scoreTrgSentence m w sent) from rfl, addVec_nil, heurVec_aux sent fs _ (sentAt m w sent) (scoreTrgSentence_map m w sent)]
      simp [lms]
    | phr f => exact heurVec_eq sent fs
    | wp m => exact heurVec_eq sent fs
    | jump f => exact heurVec_eq sent fs
    | srcLen t => exact heurVec_eq sent fs
    | trgLen f => exact heurVec_eq sent fs

/-- What the heuristic returns: for each language model, the weighted log-probability of the remaining words, and the
log-probability of the end of the sentence without weight. -/
def Spec.restEos (fs : List (R × Feat R)) (sent : List Str) (len : Nat) : R :=
  ((lms fs).map fun q => q.1 * (lmWords q.2 sent - lmWords q.2 (sent.take len)) + q.2.eos (q.2.addWords sent q.2.bos)).sum

theorem heur_read (fs : List (R × Feat R)) (sent : List Str) (len : Nat) (hl : len ≤ sent.length) (hm : lms fs ≠ []) :
    (match (heurVec fs sent).getLast? with
      | none => none
      | some back => if len = 0 then some back else (heurVec fs sent)[len - 1]?.map fun x => back - x) =
      some (restEos fs sent len) := by
  have hv : heurVec fs sent = (List.range (sent.length + 1)).map fun i => ((lms fs).map fun q => sentAt q.2 q.1 sent i).sum := by
    rw [heurVec_eq, if_neg (by simpa using hm)]
  have hb : (heurVec fs sent).getLast? = some (((lms fs).map fun q => sentAt q.2 q.1 sent sent.length).sum) := by
    rw [hv, List.range_succ]; simp
  rw [hb]
  dsimp only
  have hlast : ∀ q : R × LM R, sentAt q.2 q.1 sent sent.length = q.1 * lmWords q.2 sent + q.2.eos (q.2.addWords sent q.2.bos) := by
    intro q; simp [sentAt]
  by_cases h0 : len = 0
  · rw [if_pos h0, h0]
    congr 2
    apply List.map_congr_left
    intro q _
    rw [hlast]
    have : lmWords q.2 (sent.take 0) = 0 := by simp [lmWords]
    rw [this]; ring
  · rw [if_neg h0, hv, List.getElem?_map, List.getElem?_range (by omega)]
    simp only [Option.map_some]
    rw [← sum_map_sub]
    congr 2
    apply List.map_congr_left
    intro q _
    rw [hlast]
    unfold sentAt
    rw [if_pos (by omega), show len - 1 + 1 = len by omega]; ring

/-- **C145 (partial).** With a reference, the heuristic of a partial translation made of the first `len` words of the
reference is the sum, for every language model, of its weight times the log-probability of the remaining words, plus the
log-probability of the end of the sentence *without the weight*. -/
theorem C145_reference_partial (fs : List (R × Feat R)) (ref : List Str) (len : Nat) (hl : len ≤ ref.length)
    (hm : lms fs ≠ []) : refHeur fs ref len = some (restEos fs ref len) := heur_read fs ref len hl hm

/-- Without language models the heuristic reads the last element of an empty vector. -/
theorem C145_no_lm (fs : List (R × Feat R)) (ref : List Str) (len : Nat) (hm : lms fs = []) : refHeur fs ref len = none := by
  unfold refHeur; rw [heurVec_eq, hm]; rfl

/-- The full claim: the weighted log-probability of the rest of the reference, end of sentence included. -/
def C145_full : Prop := ∀ (fs : List (Int × Feat Int)) (ref : List Str) (len : Nat), len ≤ ref.length → lms fs ≠ [] →
  refHeur fs ref len = some (((lms fs).map fun q => q.1 * (lmWords q.2 ref + q.2.eos (q.2.addWords ref q.2.bos) -
    lmWords q.2 (ref.take len))).sum)

theorem C145_counterexample : ¬ C145_full := by
  intro h
  have := h [(2, .lm lmEx)] ["x".toList, "yy".toList] 1 (by decide) (by simp [lms])
  revert this
  decide +kernel

/-- The hypotheses of the partial theorem are met. -/
example : refHeur [(2, Feat.lm lmEx), (3, .lm lmUni)] ["x".toList, "yy".toList] 1 = some (-20) := by decide +kernel

/-- **C146 (partial).** With a prefix, the heuristic is zero once the prefix has been produced, and before that the
weighted log-probability of the remaining words of the prefix plus the (unweighted) log-probability of ending the
sentence after the prefix. -/
theorem C146_prefix_partial (fs : List (R × Feat R)) (pref : List Str) (len : Nat) (hm : lms fs ≠ []) :
    prefHeur fs pref len = some (if pref.length ≤ len then 0 else restEos fs pref len) := by
  unfold prefHeur
  by_cases h : pref.length ≤ len
  · rw [if_pos h, if_pos h]
  · rw [if_neg h, if_neg h]; exact heur_read fs pref len (by omega) hm

/-- The full claim: the weighted log-probability of the remaining words of the prefix. -/
def C146_full : Prop := ∀ (fs : List (Int × Feat Int)) (pref : List Str) (len : Nat), lms fs ≠ [] →
  prefHeur fs pref len = some (((lms fs).map fun q => q.1 * (lmWords q.2 pref - lmWords q.2 (pref.take len))).sum)

theorem C146_counterexample : ¬ C146_full := by
  intro h
  have := h [(2, .lm lmEx)] ["x".toList, "yy".toList] 1 (by simp [lms])
  revert this
  decide +kernel

/-- The heuristic with a prefix is not admissible: a translation that continues after the prefix has a strictly better
score than the estimation. -/
theorem C146_not_admissible : ∃ (fs : List (Int × Feat Int)) (src pref : List Str) (ext : List (List Step)) (h : Int),
    Ok src.length ext ∧ pref <+: words ext.flatten ∧ prefHeur fs pref 0 = some h ∧
    h < (buildHyp fs src ext).info.score - (buildHyp fs src []).info.score := by
  refine ⟨[(1, .lm { lmEx with lgp := fun _ _ => 0, eos := fun st => if st.getD 0 0 = 2 then -100 else 0 })], srcEx,
    ["xx".toList], [[⟨1, 3, ["xx".toList, "y".toList]⟩]], -100, ok_ex (by decide) (by decide) (by decide), ?_, ?_, ?_⟩
  · exact ⟨["y".toList], by decide⟩
  · decide +kernel
  · decide +kernel

/-! ### C147 -/

/-- Number of phrases that do not start right after the end of the previous one (after the beginning of the sentence for
the first one). -/
def Spec.numJumps : Nat → List Step → Nat
  | _, [] => 0
  | e, s :: D => (if s.l = e + 1 then 0 else 1) + Spec.numJumps s.r D

theorem eqLoop_eq : ∀ (D : List Step) (k e : Nat) (c : Nat × Nat), (k = 0 → e = 0) → (∀ s ∈ D, 1 ≤ s.l ∧ s.l ≤ s.r) →
    eqLoop k e (D.map fun s => (s.l, s.r)) c = (c.1 + srcWords D, c.2 + numJumps e D)
  | [], k, e, c, _, _ => by simp [eqLoop, srcWords, numJumps]
  | s :: D, k, e, c, hk, hs => by
    have h1 := hs s (by simp)
    simp only [List.map_cons, eqLoop]
    rw [eqLoop_eq D (k + 1) s.r _ (by omega) (fun t ht => hs t (by simp [ht]))]
    dsimp only
    have hw : srcWords (s :: D) = (s.r + 1 - s.l) + srcWords D := by simp [srcWords]
    rw [hw]
    simp only [numJumps]
    by_cases hk0 : k = 0
    · have := hk hk0
      subst hk0 this
      simp only [if_true]
      congr 1
      · omega
      · by_cases h : 1 < s.l
        · rw [if_pos h, if_neg (by omega)]; omega
        · rw [if_neg h, if_pos (by omega)]; omega
    · simp only [hk0, if_false]
      congr 1
      · omega
      · by_cases h : e + 1 = s.l
        · rw [if_neg (by simpa using h), if_pos h.symm]; omega
        · rw [if_pos (by simpa using h), if_neg (fun h' => h h'.symm)]; omega

theorem numJumps_zero : ∀ (D : List Step) (e : Nat), numJumps e D = 0 ↔
    ∀ (i : Nat) (s : Step), D[i]? = some s → s.l = (if i = 0 then e else ((D[i - 1]?).map (·.r)).getD 0) + 1
  | [], e => by simp [numJumps]
  | s :: D, e => by
    simp only [numJumps]
    have ih := numJumps_zero D s.r
    constructor
    · intro h i t ht
      have h1 : s.l = e + 1 := by
        by_cases h' : s.l = e + 1
        · exact h'
        · rw [if_neg h'] at h; omega
      have h2 : numJumps s.r D = 0 := by omega
      cases i with
      | zero => simp at ht; subst ht; simpa using h1
      | succ i =>
        have := (ih.1 h2) i t (by simpa using ht)
        rw [this]
        cases i with
        | zero => simp
        | succ i => simp
    · intro h
      have h1 := h 0 s (by simp)
      simp only [if_true] at h1
      rw [if_pos h1, ih.2]
      intro i t ht
      have := h (i + 1) t (by simpa using ht)
      rw [this]
      cases i with
      | zero => simp
      | succ i => simp

/-- **C147.** The stack of a hypothesis is determined by the number of translated words and by whether its phrases
translate the sentence monotonically (each phrase starts where the previous one ends). -/
theorem C147_class (D : List Step) (hs : ∀ s ∈ D, 1 ≤ s.l ∧ s.l ≤ s.r) :
    (eqClass01 (addSteps nullData D)).1 = srcWords D ∧
    (eqClass01 (addSteps nullData D)).2 ≤ 1 ∧
    ((eqClass01 (addSteps nullData D)).2 = 0 ↔
      ∀ (i : Nat) (s : Step), D[i]? = some s → s.l = (if i = 0 then 0 else ((D[i - 1]?).map (·.r)).getD 0) + 1) := by
  have e : eqClass (addSteps nullData D) = (srcWords D, numJumps 0 D) := by
    unfold eqClass
    rw [show (addSteps nullData D).srcSegm = _ from B_srcSegm D, eqLoop_eq D 0 0 _ (fun _ => rfl) hs]
    simp
  unfold eqClass01
  rw [e]
  dsimp only
  refine ⟨rfl, by split <;> omega, ?_⟩
  rw [← numJumps_zero]
  split <;> omega

/-- **C147.** Without the bound, the second component is the number of jumps. -/
theorem C147_jumps (D : List Step) (hs : ∀ s ∈ D, 1 ≤ s.l ∧ s.l ≤ s.r) :
    eqClass (addSteps nullData D) = (srcWords D, numJumps 0 D) := by
  unfold eqClass
  rw [show (addSteps nullData D).srcSegm = _ from B_srcSegm D, eqLoop_eq D 0 0 _ (fun _ => rfl) hs]
  simp

example : eqClass01 (addSteps nullData [⟨1, 2, []⟩, ⟨3, 3, []⟩]) = (3, 0) ∧
    eqClass01 (addSteps nullData [⟨2, 2, []⟩, ⟨1, 1, []⟩, ⟨4, 5, []⟩]) = (4, 1) := by decide

theorem vecLt_irrefl : ∀ a : List Nat, vecLt a a = false
  | [] => rfl
  | a :: as => by unfold vecLt; simp [vecLt_irrefl as]

theorem vecLt_asymm : ∀ a b : List Nat, vecLt a b = true → vecLt b a = false
  | _, [], h => by simp [vecLt] at h
  | [], _ :: _, _ => rfl
  | a :: as, b :: bs, h => by
    unfold vecLt at h ⊢
    split at h
    · rename_i h1; rw [if_neg (by omega), if_pos h1]
    · rename_i h1
      split at h
      · simp at h
      · rename_i h2; rw [if_neg h2, if_neg h1]; exact vecLt_asymm as bs h

theorem vecLt_trans : ∀ a b c : List Nat, vecLt a b = true → vecLt b c = true → vecLt a c = true
  | _, [], _, h, _ => by simp [vecLt] at h
  | _, _ :: _, [], _, h => by simp [vecLt] at h
  | [], _ :: _, _ :: _, _, _ => rfl
  | a :: as, b :: bs, c :: cs, h, h' => by
    unfold vecLt at h h' ⊢
    split at h
    · split at h'
      · rw [if_pos (by omega)]
      · split at h'
        · simp at h'
        · rw [if_pos (by omega)]
    · split at h
      · simp at h
      · split at h'
        · rw [if_pos (by omega)]
        · split at h'
          · simp at h'
          · rw [if_neg (by omega), if_neg (by omega)]; exact vecLt_trans as bs cs h h'

theorem vecLt_total : ∀ a b : List Nat, vecLt a b = false → vecLt b a = false → a = b
  | [], [], _, _ => rfl
  | [], _ :: _, h, _ => by simp [vecLt] at h
  | _ :: _, [], _, h => by simp [vecLt] at h
  | a :: as, b :: bs, h, h' => by
    unfold vecLt at h h'
    split at h
    · simp at h
    · rename_i h1
      rw [if_neg h1] at h'
      split at h
      · rename_i h2; rw [if_pos h2] at h'; simp at h'
      · rename_i h2
        rw [if_neg h2] at h'
        rw [vecLt_total as bs h h', show a = b by omega]

/-- The order spelled out. -/
theorem PState.lt_iff (a b : PState) : a.lt b = true ↔ vecLt b.lmHist a.lmHist = true ∨ (a.lmHist = b.lmHist ∧
    (b.trglen < a.trglen ∨ (a.trglen = b.trglen ∧ (b.endLast < a.endLast ∨ (a.endLast = b.endLast ∧ Bitset.lt a.cov b.cov = true))))) := by
  unfold PState.lt
  by_cases h1 : vecLt a.lmHist b.lmHist = true
  · rw [if_pos h1]
    have h2 := vecLt_asymm _ _ h1
    have h3 : a.lmHist ≠ b.lmHist := by intro e; rw [e, vecLt_irrefl] at h1; simp at h1
    simp [h2, h3]
  · rw [if_neg h1]
    by_cases h2 : vecLt b.lmHist a.lmHist = true
    · simp [h2]
    · have h3 := vecLt_total _ _ (by simpa using h1) (by simpa using h2)
      rw [if_neg h2]
      simp only [h3, vecLt_irrefl, true_and, Bool.false_eq_true, false_or]
      by_cases h4 : a.trglen < b.trglen
      · rw [if_pos h4]; simp; omega
      · rw [if_neg h4]
        by_cases h5 : b.trglen < a.trglen
        · simp [h5]
        · rw [if_neg h5]
          have : a.trglen = b.trglen := by omega
          simp only [this, Nat.lt_irrefl, false_or, true_and]
          by_cases h6 : a.endLast < b.endLast
          · rw [if_pos h6]; simp; omega
          · rw [if_neg h6]
            by_cases h7 : b.endLast < a.endLast
            · simp [h7]
            · rw [if_neg h7]
              have : a.endLast = b.endLast := by omega
              simp [this]

/-- **C147.** The order of hypothesis states is a strict total order (for the coverage sets of one program, which have
the same size): two states are different keys of the recombination dictionary exactly when they differ in the language
model state, the target length, the end of the last phrase or the coverage. -/
theorem C147_order (a b c : PState) (hab : a.cov.length = b.cov.length) (hbc : b.cov.length = c.cov.length) :
    a.lt a = false ∧ (a.lt b = true → b.lt c = true → a.lt c = true) ∧
    (a.lt b = false ∧ b.lt a = false ↔ a.lmHist = b.lmHist ∧ a.trglen = b.trglen ∧ a.endLast = b.endLast ∧ a.cov = b.cov) := by
  refine ⟨?_, ?_, ?_⟩
  · rw [Bool.eq_false_iff]
    intro h
    rw [PState.lt_iff] at h
    simp only [vecLt_irrefl, Nat.lt_irrefl, Bitset.C03_irrefl] at h
    simp at h
  · intro h1 h2
    rw [PState.lt_iff] at h1 h2 ⊢
    rcases h1 with h1 | ⟨e1, h1⟩
    · rcases h2 with h2 | ⟨e2, h2⟩
      · exact Or.inl (vecLt_trans _ _ _ h2 h1)
      · rw [← e2]; exact Or.inl h1
    · rcases h2 with h2 | ⟨e2, h2⟩
      · rw [e1]; exact Or.inl h2
      · refine Or.inr ⟨e1.trans e2, ?_⟩
        rcases h1 with h1 | ⟨f1, h1⟩
        · rcases h2 with h2 | ⟨f2, h2⟩
          · exact Or.inl (by omega)
          · exact Or.inl (by omega)
        · rcases h2 with h2 | ⟨f2, h2⟩
          · exact Or.inl (by omega)
          · refine Or.inr ⟨f1.trans f2, ?_⟩
            rcases h1 with h1 | ⟨k1, h1⟩
            · rcases h2 with h2 | ⟨k2, h2⟩
              · exact Or.inl (by omega)
              · exact Or.inl (by omega)
            · rcases h2 with h2 | ⟨k2, h2⟩
              · exact Or.inl (by omega)
              · exact Or.inr ⟨k1.trans k2, Bitset.C03_trans _ _ _ hab hbc h1 h2⟩
  · constructor
    · rintro ⟨h1, h2⟩
      have n1 : ¬ (a.lt b = true) := by rw [h1]; simp
      have n2 : ¬ (b.lt a = true) := by rw [h2]; simp
      rw [PState.lt_iff] at n1 n2
      have e1 : a.lmHist = b.lmHist := by
        apply vecLt_total
        · rw [Bool.eq_false_iff]; exact fun h => n2 (Or.inl h)
        · rw [Bool.eq_false_iff]; exact fun h => n1 (Or.inl h)
      have e2 : a.trglen = b.trglen := by
        rcases Nat.lt_trichotomy a.trglen b.trglen with h | h | h
        · exact absurd (Or.inr ⟨e1.symm, Or.inl h⟩) n2
        · exact h
        · exact absurd (Or.inr ⟨e1, Or.inl h⟩) n1
      have e3 : a.endLast = b.endLast := by
        rcases Nat.lt_trichotomy a.endLast b.endLast with h | h | h
        · exact absurd (Or.inr ⟨e1.symm, Or.inr ⟨e2.symm, Or.inl h⟩⟩) n2
        · exact h
        · exact absurd (Or.inr ⟨e1, Or.inr ⟨e2, Or.inl h⟩⟩) n1
      refine ⟨e1, e2, e3, ?_⟩
      rcases Bitset.C03_total a.cov b.cov hab with h | h | h
      · exact (Bitset.eq_iff hab).1 h
      · exact absurd (Or.inr ⟨e1, Or.inr ⟨e2, Or.inr ⟨e3, h⟩⟩⟩) n1
      · exact absurd (Or.inr ⟨e1.symm, Or.inr ⟨e2.symm, Or.inr ⟨e3.symm, h⟩⟩⟩) n2
    · rintro ⟨e1, e2, e3, e4⟩
      have : a = b := by cases a; cases b; simp_all
      subst this
      have : a.lt a = false := by
        rw [Bool.eq_false_iff]
        intro h
        rw [PState.lt_iff] at h
        simp only [vecLt_irrefl, Nat.lt_irrefl, Bitset.C03_irrefl] at h
        simp at h
      exact ⟨this, this⟩

example : PState.lt ⟨[2], 1, 1, [1#32]⟩ ⟨[1, 5], 9, 9, [0#32]⟩ = true ∧
    PState.lt ⟨[2], 1, 1, [1#32]⟩ ⟨[2], 1, 1, [3#32]⟩ = true := by decide

end
end Thot.Feat
