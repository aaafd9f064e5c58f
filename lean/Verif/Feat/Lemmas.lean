import Verif.Feat.Spec
import Mathlib.Tactic.Ring

/-! Lemmas: contents of a hypothesis built by extension, and the loops of the features. -/
set_option linter.unusedSectionVars false
namespace Thot.Feat
open Thot.StrProc (Str)
open Thot.Meta (Segm)
open Thot.Search (HypData extend nullData nullWord srcPhrase covered)
open Spec

/-- The data of the hypothesis with the phrases `D`. -/
def B (D : List Step) : HypData := addSteps nullData D

theorem B_append (D E : List Step) : B (D ++ E) = addSteps (B D) E := by simp [B, addSteps]
theorem B_snoc (D : List Step) (s : Step) : B (D ++ [s]) = extend (B D) s.l s.r s.trg := by simp [B, addSteps]

theorem words_append (D E : List Step) : words (D ++ E) = words D ++ words E := by simp [words]
theorem words_single (s : Step) : words [s] = s.trg := by simp [words]
theorem srcWords_append (D E : List Step) : srcWords (D ++ E) = srcWords D + srcWords E := by simp [srcWords]

theorem list_snoc_ind {α : Type} {p : List α → Prop} (h0 : p []) (h1 : ∀ l a, p l → p (l ++ [a])) (l : List α) : p l := by
  have : ∀ l : List α, p l.reverse := by
    intro l; induction l with
    | nil => simpa using h0
    | cons a l ih => rw [List.reverse_cons]; exact h1 _ _ ih
  simpa using this l.reverse

theorem B_ntarget (D : List Step) : (B D).ntarget = nullWord :: words D := by
  induction D using list_snoc_ind with
  | h0 => rfl
  | h1 D s ih => rw [B_snoc, words_append, words_single]; simp [extend, ih]

theorem B_srcSegm (D : List Step) : (B D).srcSegm = D.map fun s => (s.l, s.r) := by
  induction D using list_snoc_ind with
  | h0 => rfl
  | h1 D s ih => rw [B_snoc]; simp [extend, ih]

theorem B_cuts_len (D : List Step) : (B D).cuts.length = D.length := by
  induction D using list_snoc_ind with
  | h0 => rfl
  | h1 D s ih => rw [B_snoc]; simp [extend, ih]

theorem B_cuts_at (P : List Step) (g : Step) (G : List Step) :
    (B (P ++ g :: G)).cuts.getD P.length 0 = (words (P ++ [g])).length := by
  induction G using list_snoc_ind with
  | h0 =>
    rw [B_snoc]
    have : (extend (B P) g.l g.r g.trg).cuts = (B P).cuts ++ [((B P).ntarget ++ g.trg).length - 1] := rfl
    rw [this, List.getD_eq_getElem?_getD, ← B_cuts_len P, List.getElem?_append_right (Nat.le_refl _), B_ntarget,
      words_append, words_single]
    simp
  | h1 G s ih =>
    rw [show P ++ g :: (G ++ [s]) = (P ++ g :: G) ++ [s] by simp, B_snoc]
    have : (extend (B (P ++ g :: G)) s.l s.r s.trg).cuts =
      (B (P ++ g :: G)).cuts ++ [((B (P ++ g :: G)).ntarget ++ s.trg).length - 1] := rfl
    rw [this, List.getD_eq_getElem?_getD, List.getElem?_append_left, ← List.getD_eq_getElem?_getD, ih]
    rw [B_cuts_len]; simp

theorem segm_at (P : List Step) (g : Step) (G : List Step) : segm (B (P ++ g :: G)) P.length = (g.l, g.r) := by
  unfold segm; rw [B_srcSegm]; simp

theorem trgLeft_at (P : List Step) (g : Step) (G : List Step) :
    trgLeft (B (P ++ g :: G)) P.length = (words P).length + 1 := by
  unfold trgLeft
  rcases List.eq_nil_or_concat P with rfl | ⟨P', p, rfl⟩
  · simp [words]
  · rw [if_neg (by simp)]
    have : (B (P'.concat p ++ g :: G)).cuts.getD ((P'.concat p).length - 1) 0 = (words (P'.concat p)).length := by
      have := B_cuts_at P' p (g :: G)
      simpa using this
    rw [this]

theorem trgRight_at (P : List Step) (g : Step) (G : List Step) :
    trgRight (B (P ++ g :: G)) P.length = (words P).length + g.trg.length := by
  unfold trgRight; rw [B_cuts_at, words_append, words_single, List.length_append]

theorem trgLenOf_at (P : List Step) (g : Step) (G : List Step) : trgLenOf (B (P ++ g :: G)) P.length = g.trg.length := by
  unfold trgLenOf; rw [trgLeft_at, trgRight_at]; omega

theorem trgPhr_at (P : List Step) (g : Step) (G : List Step) : trgPhr (B (P ++ g :: G)) P.length = g.trg := by
  unfold trgPhr
  rw [trgLeft_at, trgRight_at, B_ntarget, words_append, List.drop_succ_cons]
  rw [show words (g :: G) = g.trg ++ words G by simp [words], List.drop_left]
  rw [show (words P).length + g.trg.length + 1 - ((words P).length + 1) = g.trg.length by omega, List.take_left]

theorem jumpOf_at (P : List Step) (g : Step) (G : List Step) : jumpOf (B (P ++ g :: G)) P.length =
    ((g.l : Int) - ((((P.getLast?.map (·.r)).getD 0 : Nat) : Int) + 1)).natAbs := by
  unfold jumpOf
  rw [segm_at]
  rcases List.eq_nil_or_concat P with rfl | ⟨P', p, rfl⟩
  · simp
  · rw [if_neg (by simp)]
    have : segm (B (P'.concat p ++ g :: G)) ((P'.concat p).length - 1) = (p.l, p.r) := by
      have := segm_at P' p (g :: G)
      simpa using this
    rw [this]; simp

theorem newSegms_B (P G : List Step) : newSegms (B P) (B (P ++ G)) = List.range' P.length G.length := by
  unfold newSegms; rw [B_srcSegm, B_srcSegm]; simp

theorem numCovered_B (D : List Step) (h : ∀ s ∈ D, s.l ≤ s.r) : numCovered (B D) = srcWords D := by
  unfold numCovered srcWords; rw [B_srcSegm, List.map_map]
  congr 1
  apply List.map_congr_left
  intro s hs
  have := h s hs
  simp only [Function.comp]; omega

section
variable {R : Type} [CommRing R]

theorem Acc.add_add (w : R) (a : Acc R) (x y : R) : (a.add w x).add w y = a.add w (x + y) := by
  simp only [Acc.add, Acc.mk.injEq]; exact ⟨by ring, by ring⟩
theorem Acc.add_zero (w : R) (a : Acc R) : a.add w 0 = a := by
  cases a; simp [Acc.add]

/-- A loop over the new segments whose contributions are the increments of `T`. -/
theorem fold_gen {σ : Type} (w : R) (T : List Step → R) (iter : Acc R × σ → Nat → Acc R × σ) (st : List Step → σ) (D : List Step)
    (h : ∀ a P g G, D = P ++ g :: G → iter (a, st P) P.length = (a.add w (T (P ++ [g]) - T P), st (P ++ [g]))) :
    ∀ (G P : List Step) (a : Acc R), D = P ++ G →
      (List.range' P.length G.length).foldl iter (a, st P) = (a.add w (T D - T P), st D)
  | [], P, a, hD => by
    rw [List.append_nil] at hD; subst hD
    simp [Acc.add_zero]
  | g :: G, P, a, hD => by
    rw [List.length_cons, List.range'_succ, List.foldl_cons, h a P g G hD]
    have := fold_gen w T iter st D h G (P ++ [g]) (a.add w (T (P ++ [g]) - T P)) (by rw [hD]; simp)
    rw [List.length_append] at this
    rw [show P.length + 1 = P.length + [g].length from rfl, this, Acc.add_add]
    congr 2; ring

/-- The same for loops without more state. -/
theorem fold_gen' (w : R) (T : List Step → R) (c : Nat → R) (D : List Step)
    (h : ∀ P g G, D = P ++ g :: G → c P.length = T (P ++ [g]) - T P) :
    ∀ (G P : List Step) (a : Acc R), D = P ++ G →
      (List.range' P.length G.length).foldl (fun a i => a.add w (c i)) a = a.add w (T D - T P)
  | [], P, a, hD => by
    rw [List.append_nil] at hD; subst hD
    simp [Acc.add_zero]
  | g :: G, P, a, hD => by
    rw [List.length_cons, List.range'_succ, List.foldl_cons, h P g G hD]
    have := fold_gen' w T c D h G (P ++ [g]) (a.add w (T (P ++ [g]) - T P)) (by rw [hD]; simp)
    rw [List.length_append] at this
    rw [show P.length + 1 = P.length + [g].length from rfl, this, Acc.add_add]
    congr 1; ring

/-! ### The language model -/

theorem addWords_append (m : LM R) (a b : List Str) (st : LMState) : m.addWords (a ++ b) st = m.addWords b (m.addWords a st) := by
  simp [LM.addWords]

theorem lmWords_snoc (m : LM R) (ws : List Str) (w : Str) :
    lmWords m (ws ++ [w]) = lmWords m ws + m.lgp (m.idx w) (m.addWords ws m.bos) := by
  unfold lmWords
  rw [List.length_append, List.length_singleton, List.range_succ, List.map_append, List.sum_append]
  congr 1
  · congr 1
    apply List.map_congr_left
    intro i hi
    rw [List.mem_range] at hi
    rw [List.getD_eq_getElem?_getD, List.getElem?_append_left hi, ← List.getD_eq_getElem?_getD,
      List.take_append_of_le_length (by omega)]
  · simp

theorem ngramScore_state (m : LM R) : ∀ (ws : List Str) (st : LMState), (m.ngramScore ws st).2 = m.addWords ws st
  | [], _ => rfl
  | w :: ws, st => by
    show (m.ngramScore ws _).2 = _
    rw [ngramScore_state m ws]; rfl

theorem ngramScore_score (m : LM R) : ∀ (ws pre : List Str),
    (m.ngramScore ws (m.addWords pre m.bos)).1 = lmWords m (pre ++ ws) - lmWords m pre
  | [], pre => by simp [LM.ngramScore]
  | w :: ws, pre => by
    show m.lgp (m.idx w) _ + (m.ngramScore ws _).1 = _
    have e : m.next (m.idx w) (m.addWords pre m.bos) = m.addWords (pre ++ [w]) m.bos := by simp [LM.addWords]
    rw [e, ngramScore_score m ws (pre ++ [w]), lmWords_snoc, List.append_assoc]
    simp only [List.cons_append, List.nil_append]; ring

theorem jumps_snoc (f : Nat → R) (s : Step) : ∀ (D : List Step) (e : Nat), jumps f e (D ++ [s]) =
    jumps f e D + f ((s.l : Int) - ((((D.getLast?.map (·.r)).getD e : Nat) : Int) + 1)).natAbs
  | [], e => by simp [jumps]
  | d :: D, e => by
    simp only [List.cons_append, jumps]
    rw [jumps_snoc f s D d.r]
    rw [List.getLast?_cons]
    cases D.getLast? <;> simp <;> ring

theorem trgLens_snoc (f : Nat → Nat → Nat → R) (s : Step) : ∀ (D : List Step) (x : Nat), trgLens f x (D ++ [s]) =
    trgLens f x D + f (x + (words D).length + s.trg.length) (x + (words D).length) 0
  | [], x => by simp [trgLens, words]
  | d :: D, x => by
    simp only [List.cons_append, trgLens]
    rw [trgLens_snoc f s D]
    rw [show words (d :: D) = d.trg ++ words D by simp [words], List.length_append]
    rw [← Nat.add_assoc]; ring

theorem srcLens_snoc (t : SegmLen R) (n : Nat) (s : Step) : ∀ (D : List Step) (b : List Nat), srcLens t n b (D ++ [s]) =
    srcLens t n b D + srcLen1 t n (b ++ D.map (·.l)) s
  | [], b => by simp [srcLens]
  | d :: D, b => by
    simp only [List.cons_append, srcLens]
    rw [srcLens_snoc t n s D]
    simp only [List.map_cons, List.append_assoc, List.cons_append, List.nil_append]
    ring

theorem nextGap_fold (l : Nat) : ∀ (starts : List Nat) (n : Nat),
    starts.foldl (fun g b => if l < b ∧ b < g then b else g) n = (starts.filter fun b => decide (l < b)).foldl min n
  | [], n => rfl
  | b :: starts, n => by
    rw [List.foldl_cons, nextGap_fold l starts, List.filter_cons]
    by_cases h : l < b
    · simp only [h, decide_true, if_true, true_and, List.foldl_cons]
      congr 1
      split <;> omega
    · simp [h]

theorem range_fold_getD {β : Type} (f : β → Nat → β) (xs : List Segm) : ∀ (k : Nat) (b : β), k ≤ xs.length →
    (List.range k).foldl (fun g j => f g (xs.getD j (0, 0)).1) b = ((xs.take k).map (·.1)).foldl f b
  | 0, b, _ => by simp
  | k + 1, b, h => by
    rw [List.range_succ, List.foldl_append, range_fold_getD f xs k b (by omega)]
    rw [List.take_add_one, List.map_append, List.foldl_append]
    have : xs[k]? = some xs[k] := List.getElem?_eq_getElem (by omega)
    simp [List.getD_eq_getElem?_getD, this]

theorem nextGapStart_eq (segms : List Segm) (k n l : Nat) (hk : k ≤ segms.length) :
    nextGapStart segms k n l = nextStart ((segms.take k).map (·.1)) n l := by
  unfold nextGapStart nextStart
  rw [range_fold_getD (fun g b => if l < b ∧ b < g then b else g) segms k n hk, nextGap_fold]

theorem natDiff_eq (a b : Nat) : natDiff a b = ((a : Int) - b).natAbs := by
  unfold natDiff; split <;> omega

theorem lgProb_at (t : SegmLen R) (n : Nat) (P : List Step) (g : Step) (G : List Step) (hg : g.l ≤ g.r) :
    t.lgProb P.length (B (P ++ g :: G)).srcSegm n g.trg.length = srcLen1 t n (P.map (·.l)) g := by
  have hs : (B (P ++ g :: G)).srcSegm.getD P.length (0, 0) = (g.l, g.r) := segm_at P g G
  have hl : g.r - g.l + 1 = g.r + 1 - g.l := by omega
  unfold SegmLen.lgProb srcLen1
  rw [hs]
  dsimp only
  cases t with
  | uniform f =>
    dsimp only
    rw [nextGapStart_eq _ _ _ _ (by rw [B_srcSegm]; simp), B_srcSegm]
    congr 3
    simp [List.map_append, Function.comp_def]
  | poisson lp => dsimp only; rw [hl]
  | geom lp => dsimp only; rw [natDiff_eq, hl]

/-! ### The extension functions -/

/-- The value of a feature without what is added when the translation is complete. -/
def part (ft : Feat R) (src : List Str) (D : List Step) : R :=
  match ft with
  | .phr f => (D.map fun s => f (srcPhrase src s.l s.r) s.trg).sum
  | .lm m => lmWords m (words D)
  | .wp m => m.sum (words D).length
  | .jump f => jumps f 0 D
  | .srcLen t => srcLens t src.length [] D
  | .trgLen f => trgLens f 0 D

/-- What is added when the translation is complete. -/
def compl (ft : Feat R) (D : List Step) : R :=
  match ft with
  | .lm m => m.eos (m.addWords (words D) m.bos)
  | .wp m => m.score (words D).length - m.sum (words D).length
  | _ => 0

theorem total_eq (ft : Feat R) (src : List Str) (D : List Step) :
    total ft src D = part ft src D + if srcWords D = src.length then compl ft D else 0 := by
  cases ft <;> simp only [total, part, compl] <;> split <;> simp

/-- The language model state after a feature. -/
def lmAfter (ft : Feat R) (src : List Str) (D : List Step) (old : LMState) : LMState :=
  match ft with
  | .lm m => if srcWords D = src.length then m.eosNext (m.addWords (words D) m.bos) else m.addWords (words D) m.bos
  | _ => old

theorem ext_eq (ft : Feat R) (src : List Str) (w : R) (inf : Info R) (P G : List Step) (hseg : ∀ s ∈ P ++ G, s.l ≤ s.r) :
    ft.ext src w inf (B P) (B (P ++ G)) =
      (⟨inf.score + w * (part ft src (P ++ G) - part ft src P + if srcWords (P ++ G) = src.length then compl ft (P ++ G) else 0),
        lmAfter ft src (P ++ G) inf.lmHist⟩,
       part ft src (P ++ G) - part ft src P + if srcWords (P ++ G) = src.length then compl ft (P ++ G) else 0) := by
  have fin : ∀ x : R, (Acc.add w ⟨inf.score, 0⟩ x) = ⟨inf.score + w * x, x⟩ := by intro x; simp [Acc.add]
  cases ft with
  | phr f =>
    have h := fold_gen' w (part (.phr f) src) (fun i => f (srcPhrase src (segm (B (P ++ G)) i).1 (segm (B (P ++ G)) i).2)
      (trgPhr (B (P ++ G)) i)) (P ++ G) (by
        intro P' g G' hD
        rw [hD, segm_at, trgPhr_at]; simp [part]) G P ⟨inf.score, 0⟩ rfl
    have e : extPhr f src w inf.score (B P) (B (P ++ G)) =
        Acc.add w ⟨inf.score, 0⟩ (part (.phr f) src (P ++ G) - part (.phr f) src P) := by unfold extPhr; rw [newSegms_B]; exact h
    simp only [Feat.ext]
    rw [e, fin]; simp [compl, lmAfter]
  | lm m =>
    have h := fold_gen w (part (.lm m) src) (lmIter m w (B (P ++ G))) (fun D => m.addWords (words D) m.bos) (P ++ G) (by
        intro a P' g G' hD
        unfold lmIter
        rw [hD, trgPhr_at]
        dsimp only
        rw [ngramScore_score, ngramScore_state, ← addWords_append]
        simp only [part]; rw [words_append, words_single]) G P ⟨inf.score, 0⟩ rfl
    simp only [Feat.ext]
    unfold extLm
    rw [newSegms_B, show (B P).ntarget.tail = words P by rw [B_ntarget]; rfl, h, numCovered_B _ hseg, fin]
    dsimp only
    by_cases hc : srcWords (P ++ G) = src.length
    · rw [if_pos hc]; simp only [if_pos hc, Acc.add, compl, lmAfter, Prod.mk.injEq, Info.mk.injEq, and_true]; ring
    · rw [if_neg hc]; simp only [if_neg hc, lmAfter, _root_.add_zero]
  | wp m =>
    have h := fold_gen w (part (.wp m) src) (wpIter m w (B (P ++ G))) (fun D => (words D).length) (P ++ G) (by
        intro a P' g G' hD
        unfold wpIter
        rw [hD, trgLenOf_at]
        simp only [part]; rw [words_append, words_single, List.length_append]) G P ⟨inf.score, 0⟩ rfl
    simp only [Feat.ext]
    unfold extWp
    rw [newSegms_B, show (B P).ntarget.length - 1 = (words P).length by rw [B_ntarget]; simp, h, numCovered_B _ hseg, fin]
    dsimp only
    by_cases hc : srcWords (P ++ G) = src.length
    · rw [if_pos hc]; simp only [if_pos hc, Acc.add, compl, lmAfter, Prod.mk.injEq, Info.mk.injEq, and_true]; ring
    · rw [if_neg hc]; simp only [if_neg hc, lmAfter, _root_.add_zero]
  | jump f =>
    have h := fold_gen' w (part (.jump f) src) (fun i => f (jumpOf (B (P ++ G)) i)) (P ++ G) (by
        intro P' g G' hD
        rw [hD, jumpOf_at]; simp only [part]; rw [jumps_snoc]; ring) G P ⟨inf.score, 0⟩ rfl
    have e : extJump f w inf.score (B P) (B (P ++ G)) =
        Acc.add w ⟨inf.score, 0⟩ (part (.jump f) src (P ++ G) - part (.jump f) src P) := by unfold extJump; rw [newSegms_B]; exact h
    simp only [Feat.ext]
    rw [e, fin]; simp [compl, lmAfter]
  | srcLen t =>
    have h := fold_gen' w (part (.srcLen t) src) (fun i => t.lgProb i (B (P ++ G)).srcSegm src.length (trgLenOf (B (P ++ G)) i))
      (P ++ G) (by
        intro P' g G' hD
        have hg : g.l ≤ g.r := hseg g (by rw [hD]; simp)
        rw [hD, trgLenOf_at, lgProb_at t _ _ _ _ hg]; simp only [part]; rw [srcLens_snoc, List.nil_append]; ring) G P ⟨inf.score, 0⟩ rfl
    have e : extSrcLen t src.length w inf.score (B P) (B (P ++ G)) =
        Acc.add w ⟨inf.score, 0⟩ (part (.srcLen t) src (P ++ G) - part (.srcLen t) src P) := by unfold extSrcLen; rw [newSegms_B]; exact h
    simp only [Feat.ext]
    rw [e, fin]; simp [compl, lmAfter]
  | trgLen f =>
    have h := fold_gen w (part (.trgLen f) src) (trgLenIter f w (B (P ++ G))) (fun D => (words D).length) (P ++ G) (by
        intro a P' g G' hD
        unfold trgLenIter
        rw [hD, trgLenOf_at]
        simp only [part]; rw [words_append, words_single, List.length_append, trgLens_snoc, Nat.zero_add]
        congr 2; ring) G P ⟨inf.score, 0⟩ rfl
    simp only [Feat.ext]
    unfold extTrgLen
    rw [newSegms_B, show (B P).ntarget.length - 1 = (words P).length by rw [B_ntarget]; simp, h, fin]
    simp [compl, lmAfter]

end
end Thot.Feat
