import Verif.Preproc.Categ
import Verif.AligFile.Giza
/-!
C258, C259: decategorization and the categorization of annotated phrases.
-/
namespace Thot.Preproc

open Thot
open Thot.SentHandler (joinWords Word fields_join)
open Thot.Awk (fields)
open Thot.Vocab (showNat)

/-! ### Specification -/

/-- The words for a source segment: its limits and some words for its type. -/
def segWords (s : (Nat × Nat) × List W) : List W :=
  ["(".toList, showNat s.1.1, ",".toList, showNat s.1.2, ";".toList, "type:".toList] ++ s.2 ++ [")".toList]

/-- The information printed by the decoder about a hypothesis (`_pbTransModel::printHyp`). -/
def infoWords (pre : List W) (segs : List ((Nat × Nat) × List W)) (cuts : List Nat) (post : List W) : List W :=
  pre ++ ("|".toList :: "Source".toList :: "Segmentation:".toList :: (segs.flatMap segWords ++
    ("|".toList :: "Target".toList :: "Segmentation:".toList :: (cuts.map showNat ++ "|".toList :: post))))

/-- The index of the segment of a position, the segments ending at the cuts. -/
def segIdx (cuts : List Nat) (p : Nat) : Nat := (cuts.filter fun c => decide (c ≤ p)).length

/-- The first position of that segment. -/
def segLeft (cuts : List Nat) (p : Nat) : Nat := (cuts.filter fun c => decide (c ≤ p)).getLast?.getD 0

/-- The words of a source segment of a category. -/
def ofCateg (cz : W → W) (s : List W) (seg : Nat × Nat) (c : W) : List W := ((s.take seg.2).drop (seg.1 - 1)).filter fun w => decide (cz w = c)

/-- The categories. -/
def IsCategory (w : W) : Prop := w = "<common_word>".toList ∨ w = "<number>".toList ∨ w = "<digit>".toList ∨ w = "<alfanum>".toList

/-- What a word of the target has to become: a category becomes the source word of its category, in the segment it is aligned with, that has
the same order (from the left); it stays when there is none. -/
def wantedWord (cz : W → W) (s t : List W) (segs : List (Nat × Nat)) (cuts : List Nat) (p : Nat) (w : W) : W :=
  if w = "<common_word>".toList ∨ w = "<number>".toList ∨ w = "<digit>".toList ∨ w = "<alfanum>".toList
  then (ofCateg cz s (segs.getD (segIdx cuts p) (0, 0)) w)[((t.take p).drop (segLeft cuts p)).count w]?.getD w
  else w

/-! ### The information about the hypothesis -/

theorem after_skip (name : W) (a : W) (l : List W) (h : a ≠ ['|']) : afterMark name (a :: l) = afterMark name l := by
  match l with
  | [] => rfl
  | [b] => rfl
  | b :: c :: r => rw [afterMark, if_neg (fun hc => h hc.1)]

theorem after_pre (name x : W) (hx : x ≠ "Segmentation:".toList) (r : List W) : ∀ Q : List W, "Segmentation:".toList ∉ Q →
    afterMark name (Q ++ ['|'] :: x :: "Segmentation:".toList :: r) = afterMark name (['|'] :: x :: "Segmentation:".toList :: r) := by
  intro Q
  induction Q with
  | nil => intro _; rfl
  | cons q Q ih =>
    intro hQ
    rw [List.mem_cons, not_or] at hQ
    rw [List.cons_append, ← ih hQ.2]
    match Q, hQ.2 with
    | [], _ =>
      show (if q = ['|'] ∧ ['|'] = name ∧ x = "Segmentation:".toList then _ else _) = _
      rw [if_neg (fun hc => hx hc.2.2)]; rfl
    | [q1], _ =>
      show (if q = ['|'] ∧ q1 = name ∧ ['|'] = "Segmentation:".toList then _ else _) = _
      rw [if_neg (fun hc => by have := hc.2.2; revert this; decide)]; rfl
    | q1 :: q2 :: Q, hq =>
      show (if q = ['|'] ∧ q1 = name ∧ q2 = "Segmentation:".toList then _ else _) = _
      rw [if_neg (fun hc => hq (by rw [hc.2.2]; simp))]; rfl

theorem digit_ne {c : Char} (hc : Vocab.isDig c = false) (n : Nat) : showNat n ≠ [c] := by
  intro h
  obtain ⟨m, hm⟩ := Vocab.showNat_digits n c (by rw [h]; simp)
  have h1 := (Vocab.digit_dig m).1
  rw [← hm, hc] at h1
  cases h1

theorem scan_seg (s : (Nat × Nat) × List W) (hs : ∀ w ∈ s.2, w ≠ ['('] ∧ w ≠ ['|']) (r : List W) :
    scanSrc (segWords s ++ r) = (scanSrc r).map (s.1 :: ·) := by
  have hskip : ∀ (w : W) (r : List W), w ≠ ['('] → w ≠ ['|'] → scanSrc (w :: r) = scanSrc r := by
    intro w r h1 h2
    rw [scanSrc, if_neg h1, if_neg h2]
  have htypes : ∀ (ts : List W) (r : List W), (∀ w ∈ ts, w ≠ ['('] ∧ w ≠ ['|']) → scanSrc (ts ++ r) = scanSrc r := by
    intro ts
    induction ts with
    | nil => intro r _; rfl
    | cons t ts ih =>
      intro r h
      rw [List.cons_append, hskip _ _ (h t List.mem_cons_self).1 (h t List.mem_cons_self).2, ih r fun w hw => h w (List.mem_cons_of_mem _ hw)]
  have e : segWords s ++ r = ['('] :: showNat s.1.1 :: [','] :: showNat s.1.2 :: [';'] :: "type:".toList :: (s.2 ++ ([')'] :: r)) := by
    unfold segWords
    simp
  rw [e, scanSrc, if_pos rfl]
  have e2 : segAt (showNat s.1.1 :: [','] :: showNat s.1.2 :: [';'] :: "type:".toList :: (s.2 ++ ([')'] :: r))) = [s.1] := by
    unfold segAt
    simp only [Vocab.atoiDigits_showNat]
  rw [e2, hskip _ _ (digit_ne (by decide) _) (digit_ne (by decide) _), hskip _ _ (by decide) (by decide),
    hskip _ _ (digit_ne (by decide) _) (digit_ne (by decide) _), hskip _ _ (by decide) (by decide), hskip _ _ (by decide) (by decide),
    htypes _ _ hs, hskip _ _ (by decide) (by decide)]
  rfl

theorem scan_segs (segs : List ((Nat × Nat) × List W)) (hs : ∀ s ∈ segs, ∀ w ∈ s.2, w ≠ ['('] ∧ w ≠ ['|']) (r : List W) :
    scanSrc (segs.flatMap segWords ++ ['|'] :: r) = some (segs.map Prod.fst) := by
  induction segs with
  | nil => rw [List.flatMap_nil, List.nil_append, scanSrc, if_neg (by decide), if_pos rfl]; rfl
  | cons s segs ih =>
    rw [List.flatMap_cons, List.append_assoc, scan_seg s (hs s List.mem_cons_self), ih fun x hx => hs x (List.mem_cons_of_mem _ hx)]
    rfl

theorem scan_cuts (cuts : List Nat) (post : List W) : scanTrg (cuts.map showNat ++ ['|'] :: post) = some cuts := by
  induction cuts with
  | nil => rw [List.map_nil, List.nil_append, scanTrg, if_neg (by simp)]
  | cons c cs ih =>
    rw [List.map_cons, List.cons_append, scanTrg, if_pos (digit_ne (by decide) c), ih, Vocab.atoiDigits_showNat]; rfl

theorem seg_no_mark (s : (Nat × Nat) × List W) (hs : ∀ w ∈ s.2, w ≠ "Segmentation:".toList) : "Segmentation:".toList ∉ segWords s := by
  have hd : ∀ n, "Segmentation:".toList ≠ showNat n := by
    intro n h
    obtain ⟨m, hm⟩ := Vocab.showNat_digits n 'S' (by rw [← h]; decide)
    have h1 := (Vocab.digit_dig m).1
    rw [← hm] at h1
    exact absurd h1 (by decide)
  unfold segWords
  intro h
  rcases List.mem_append.1 h with h | h
  · rcases List.mem_append.1 h with h | h
    · simp only [List.mem_cons, List.not_mem_nil, or_false] at h
      rcases h with h | h | h | h | h | h
      · revert h; decide
      · exact hd _ h
      · revert h; decide
      · exact hd _ h
      · revert h; decide
      · revert h; decide
    · exact hs _ h rfl
  · revert h; decide

theorem info_parsed (pre : List W) (segs : List ((Nat × Nat) × List W)) (cuts : List Nat) (post : List W)
    (hpre : "Segmentation:".toList ∉ pre) (hs : ∀ s ∈ segs, ∀ w ∈ s.2, w ≠ "(".toList ∧ w ≠ "|".toList ∧ w ≠ "Segmentation:".toList) :
    srcSegs (infoWords pre segs cuts post) = segs.map Prod.fst ∧ trgCuts (infoWords pre segs cuts post) = cuts := by
  constructor
  · unfold srcSegs infoWords
    rw [show "|".toList = ['|'] from rfl, after_pre "Source".toList "Source".toList (by decide) _ pre hpre, afterMark,
      if_pos ⟨rfl, rfl, rfl⟩]
    simp only
    rw [scan_segs segs (fun s h w hw => ⟨(hs s h w hw).1, (hs s h w hw).2.1⟩)]
    rfl
  · unfold trgCuts infoWords
    rw [show "|".toList = ['|'] from rfl, after_pre "Target".toList "Source".toList (by decide) _ pre hpre, afterMark,
      if_neg (fun hc => by have := hc.2.1; revert this; decide), after_skip _ _ _ (by decide), after_skip _ _ _ (by decide),
      after_pre "Target".toList "Target".toList (by decide) _ (segs.flatMap segWords) (by
        intro h
        obtain ⟨s, h1, h2⟩ := List.mem_flatMap.1 h
        exact seg_no_mark s (fun w hw => (hs s h1 w hw).2.2) h2), afterMark, if_pos ⟨rfl, rfl, rfl⟩]
    simp only
    rw [scan_cuts]; rfl

/-! ### The words -/

theorem scanCuts_spec (p : Nat) : ∀ (cuts : List Nat) (prev k : Nat), (prev :: cuts).Pairwise (· < ·) → prev ≤ p → (∃ c ∈ cuts, p < c) →
    ∃ r, scanCuts p cuts prev k = some (k + segIdx cuts p, (cuts.filter fun c => decide (c ≤ p)).getLast?.getD prev, r) ∧ p < r ∧ r ∈ cuts := by
  intro cuts
  induction cuts with
  | nil => rintro _ _ _ _ ⟨c, hc, _⟩; cases hc
  | cons c cs ih =>
    rintro prev k hpw hp ⟨d, hd, hpd⟩
    rw [scanCuts]
    by_cases h : p + 1 ≤ c
    · rw [if_pos ⟨by omega, h⟩]
      have hf : (c :: cs).filter (fun c => decide (c ≤ p)) = [] := by
        rw [List.filter_eq_nil_iff]
        intro x hx
        have : c ≤ x := by
          rcases List.mem_cons.1 hx with rfl | hx
          · exact Nat.le_refl _
          · exact Nat.le_of_lt ((List.pairwise_cons.1 (List.pairwise_cons.1 hpw).2).1 x hx)
        simp; omega
      refine ⟨c, ?_, by omega, List.mem_cons_self⟩
      unfold segIdx
      rw [hf]; rfl
    · rw [if_neg (fun hc => h hc.2)]
      have hcp : c ≤ p := by omega
      obtain ⟨r, e, h1, h2⟩ := ih c (k + 1) (List.pairwise_cons.1 hpw).2 hcp (by
        rcases List.mem_cons.1 hd with rfl | hd
        · omega
        · exact ⟨d, hd, hpd⟩)
      refine ⟨r, ?_, h1, List.mem_cons_of_mem _ h2⟩
      rw [e]
      unfold segIdx
      rw [List.filter_cons_of_pos (by simpa using hcp), List.length_cons]
      have e1 : k + 1 + (cs.filter fun c => decide (c ≤ p)).length = k + ((cs.filter fun c => decide (c ≤ p)).length + 1) := by omega
      have e2 : (c :: cs.filter fun c => decide (c ≤ p)).getLast?.getD prev = (cs.filter fun c => decide (c ≤ p)).getLast?.getD c := by
        rw [List.getLast?_cons]; rfl
      rw [e1, e2]

theorem pick_spec (cz : W → W) (cur : W) (hc : isCateg cur = true) (order : Nat) : ∀ (l : List W) (i aux : Nat), aux ≤ order →
    pick cz cur order ((l.zipIdx i).filter fun x => isCateg x.1 || isCateg (cz x.1)) aux =
      (l.filter fun w => decide (cz w = cur))[order - aux]?.getD [] := by
  intro l
  induction l with
  | nil => intro i aux _; rfl
  | cons w l ih =>
    intro i aux ha
    rw [List.zipIdx_cons]
    by_cases h : cz w = cur
    · rw [List.filter_cons_of_pos (by simp [h, hc]), List.filter_cons_of_pos (by simpa using h), pick, if_pos h]
      by_cases e : aux = order
      · rw [if_pos e, e, Nat.sub_self]; rfl
      · rw [if_neg e, ih (i + 1) (aux + 1) (by omega), show order - aux = (order - (aux + 1)) + 1 by omega, List.getElem?_cons_succ]
    · rw [List.filter_cons_of_neg (p := fun w => decide (cz w = cur)) (by simpa using h)]
      by_cases hk : (isCateg w || isCateg (cz w)) = true
      · rw [List.filter_cons_of_pos (by simpa using hk), pick, if_neg h, ih (i + 1) aux ha]
      · rw [List.filter_cons_of_neg (by simpa using hk), ih (i + 1) aux ha]

theorem order_spec (cz : W → W) (cur : W) (hc : isCateg cur = true) : ∀ (l : List W) (i n p : Nat), i ≤ p → p < i + l.length →
    (∀ w, l[p - i]? = some w → w = cur) →
    orderOf cur p ((l.zipIdx i).filter fun x => isCateg x.1 || isCateg (cz x.1)) n = n + (l.take (p - i)).count cur := by
  intro l
  induction l with
  | nil => intro i n p h1 h2; simp at h2; omega
  | cons w l ih =>
    intro i n p h1 h2 h3
    rw [List.zipIdx_cons]
    by_cases e : i = p
    · subst e
      have hw : w = cur := h3 w (by simp)
      rw [List.filter_cons_of_pos (by simp [hw, hc]), orderOf, if_pos rfl, Nat.sub_self]; simp
    · have hs : p - i = (p - (i + 1)) + 1 := by omega
      have h3' : ∀ v, l[p - (i + 1)]? = some v → v = cur := by
        intro v hv
        apply h3 v
        rw [hs, List.getElem?_cons_succ]; exact hv
      rw [List.length_cons] at h2
      rw [hs, List.take_succ_cons]
      by_cases h : w = cur
      · rw [List.filter_cons_of_pos (by simp [h, hc]), orderOf, if_neg e, if_pos h, ih (i + 1) (n + 1) p (by omega) (by omega) h3', h,
          List.count_cons_self]
        omega
      · rw [List.count_cons_of_ne h]
        by_cases hk : (isCateg w || isCateg (cz w)) = true
        · rw [List.filter_cons_of_pos (by simpa using hk), orderOf, if_neg e, if_neg h, ih (i + 1) n p (by omega) (by omega) h3']
        · rw [List.filter_cons_of_neg (by simpa using hk), ih (i + 1) n p (by omega) (by omega) h3']

theorem isCateg_iff (w : W) : isCateg w = true ↔
    (w = "<common_word>".toList ∨ w = "<number>".toList ∨ w = "<digit>".toList ∨ w = "<alfanum>".toList) := by
  unfold isCateg categs
  rw [decide_eq_true_iff]
  simp only [List.mem_cons, List.not_mem_nil, or_false]

theorem decateg_at (cz : W → W) (s t : List W) (hs : ∀ w ∈ s, w ≠ []) (segs : List (Nat × Nat)) (cuts : List Nat)
    (hlen : segs.length = cuts.length) (hcuts : cuts.Pairwise (· < ·)) (hc0 : ∀ c ∈ cuts, 0 < c) (hlast : ∀ c ∈ cuts, c ≤ t.length)
    (hcov : ∀ p, p < t.length → ∃ c ∈ cuts, p < c) (hseg : ∀ g ∈ segs, g.2 ≤ s.length) (p : Nat) (w : W) (hp : t[p]? = some w) :
    decategAt cz s t segs cuts (w, p) = some (wantedWord cz s t segs cuts p w) := by
  unfold decategAt wantedWord
  simp only
  by_cases hw : isCateg w = true
  · rw [if_pos hw, if_pos ((isCateg_iff w).1 hw)]
    have hpl : p < t.length := (List.getElem?_eq_some_iff.1 hp).1
    obtain ⟨r, e, hpr, hr⟩ := scanCuts_spec p cuts 0 0 (List.pairwise_cons.2 ⟨hc0, hcuts⟩) (Nat.zero_le _) (hcov p hpl)
    have hidx : segIdx cuts p < segs.length := by
      rw [hlen]
      unfold segIdx
      obtain ⟨c, hc, hpc⟩ := hcov p hpl
      have h1 : (cuts.filter fun c => decide (c ≤ p)).length ≤ cuts.length := List.length_filter_le _ _
      apply Nat.lt_of_le_of_ne h1
      intro he
      have := (List.length_filter_eq_length_iff.1 he) c hc
      simp at this; omega
    have hleft : segLeft cuts p ≤ p := by
      unfold segLeft
      cases hl : (cuts.filter fun c => decide (c ≤ p)).getLast? with
      | none => simp
      | some x =>
        have := List.mem_of_getLast? hl
        simpa using (List.mem_filter.1 this).2
    have hrl := hlast r hr
    unfold decategWord
    rw [e, Nat.zero_add]
    simp only [Option.bind_eq_bind, Option.bind_some]
    rw [List.getElem?_eq_getElem hidx, List.getD_eq_getElem?_getD, List.getElem?_eq_getElem hidx]
    simp only [Option.bind_some, Option.getD_some]
    generalize hg : segs[segIdx cuts p] = g
    have hgm : g ∈ segs := by rw [← hg]; exact List.getElem_mem hidx
    have hgl := hseg g hgm
    have hsl : (cuts.filter fun c => decide (c ≤ p)).getLast?.getD 0 = segLeft cuts p := rfl
    rw [hsl]
    have e2 : extractCateg cz t (segLeft cuts p) r =
        some ((((t.drop (segLeft cuts p)).take (r - segLeft cuts p)).zipIdx (segLeft cuts p)).filter fun x => isCateg x.1 || isCateg (cz x.1)) := by
      unfold extractCateg
      rw [if_neg (by omega), if_neg (by omega)]
    rw [e2]
    have e3 : orderOf w p ((((t.drop (segLeft cuts p)).take (r - segLeft cuts p)).zipIdx (segLeft cuts p)).filter
        fun x => isCateg x.1 || isCateg (cz x.1)) 0 = ((t.take p).drop (segLeft cuts p)).count w := by
      rw [order_spec cz w hw _ _ 0 p hleft (by rw [List.length_take, List.length_drop]; omega)]
      · rw [Nat.zero_add, List.take_take, List.drop_take]
        congr 2; omega
      · intro v hv
        rw [List.getElem?_take_of_lt (by omega), List.getElem?_drop, show segLeft cuts p + (p - segLeft cuts p) = p by omega, hp] at hv
        exact (Option.some.inj hv).symm
    have e4 : ∃ sw, extractCateg cz s (g.1 - 1) g.2 = some sw ∧
        ∀ order, pick cz w order sw 0 = (ofCateg cz s g w)[order]?.getD [] := by
      unfold extractCateg ofCateg
      by_cases hle : g.2 ≤ g.1 - 1
      · rw [if_pos hle]
        refine ⟨[], rfl, fun order => ?_⟩
        have : (s.take g.2).drop (g.1 - 1) = [] := List.drop_eq_nil_of_le (by rw [List.length_take]; omega)
        rw [this]; rfl
      · rw [if_neg hle, if_neg (by omega)]
        refine ⟨_, rfl, fun order => ?_⟩
        rw [pick_spec cz w hw order _ _ 0 (Nat.zero_le _), Nat.sub_zero, List.drop_take]
    obtain ⟨sw, e5, e6⟩ := e4
    rw [e5]
    simp only [Option.bind_some]
    rw [e3, e6]
    congr 1
    unfold orCateg
    cases ho : (ofCateg cz s g w)[((t.take p).drop (segLeft cuts p)).count w]? with
    | none => rfl
    | some v =>
      have hv : v ∈ ofCateg cz s g w := List.mem_of_getElem? ho
      unfold ofCateg at hv
      have := hs v (List.mem_of_mem_take (List.mem_of_mem_drop (List.mem_filter.1 hv).1))
      simp [this]
  · rw [if_neg hw, if_neg (fun h => hw ((isCateg_iff w).2 h))]

theorem decateg_all (cz : W → W) (s t : List W) (segs : List (Nat × Nat)) (cuts : List Nat) (f : Nat → W → W)
    (h : ∀ p w, t[p]? = some w → decategAt cz s t segs cuts (w, p) = some (f p w)) :
    decategAll cz s t segs cuts t.zipIdx = some (t.zipIdx.map fun x => f x.2 x.1) := by
  have : ∀ l : List (W × Nat), (∀ x ∈ l, t[x.2]? = some x.1) → decategAll cz s t segs cuts l = some (l.map fun x => f x.2 x.1) := by
    intro l
    induction l with
    | nil => intro _; rfl
    | cons x l ih =>
      intro hl
      rw [decategAll, ih fun y hy => hl y (List.mem_cons_of_mem _ hy), h x.2 x.1 (hl x List.mem_cons_self)]
      rfl
  apply this
  intro x hx
  exact List.mem_zipIdx_iff_getElem?.1 hx

/-- Decategorization. Given the source without categories, the target and what the decoder prints about the hypothesis (with segments inside
the source and increasing cuts that end with the number of target words), every word of the target that is not a category is kept and every
category becomes the source word of that category and of the same order in the segment it is aligned with, when there is one. -/
theorem C258_decategorize (cz : W → W) (s t pre post : List W) (segs : List ((Nat × Nat) × List W)) (cuts : List Nat)
    (hs : ∀ w ∈ s, Word w) (ht : ∀ w ∈ t, Word w) (hi : ∀ w ∈ infoWords pre segs cuts post, Word w)
    (hpre : "Segmentation:".toList ∉ pre) (hty : ∀ g ∈ segs, ∀ w ∈ g.2, w ≠ "(".toList ∧ w ≠ "|".toList ∧ w ≠ "Segmentation:".toList)
    (hlen : segs.length = cuts.length) (hcuts : (0 :: cuts).Pairwise (· < ·)) (hlast : cuts.getLast? = some t.length)
    (hseg : ∀ g ∈ segs, 1 ≤ g.1.1 ∧ g.1.2 ≤ s.length) :
    decategorize cz (joinWords s) (joinWords t) (joinWords (infoWords pre segs cuts post)) =
      some (joinWords (t.zipIdx.map fun x => wantedWord cz s t (segs.map Prod.fst) cuts x.2 x.1)) := by
  obtain ⟨p1, p2⟩ := info_parsed pre segs cuts post hpre hty
  have hne : cuts ≠ [] := by rintro rfl; cases hlast
  unfold decategorize
  rw [fields_join hi, fields_join hs, fields_join ht, p1, p2]
  rw [if_neg (by
    rintro (h | h | h)
    · rw [List.map_eq_nil_iff] at h
      rw [h] at hlen
      exact hne (List.length_eq_zero_iff.1 hlen.symm)
    · exact hne h
    · rw [List.length_map] at h; exact h hlen)]
  obtain ⟨hc0, hcp⟩ := List.pairwise_cons.1 hcuts
  have hle : ∀ c ∈ cuts, c ≤ t.length := by
    obtain ⟨l, e⟩ := List.getLast?_eq_some_iff.1 hlast
    intro c hc
    rw [e] at hc hcp
    rcases List.mem_append.1 hc with hc | hc
    · exact Nat.le_of_lt ((List.pairwise_append.1 hcp).2.2 c hc t.length (by simp))
    · rw [List.mem_singleton.1 hc]; exact Nat.le_refl _
  rw [decateg_all cz s t (segs.map Prod.fst) cuts (wantedWord cz s t (segs.map Prod.fst) cuts)]
  · rfl
  · intro p w hp
    refine decateg_at cz s t (fun w hw => (hs w hw).1) (segs.map Prod.fst) cuts (by rw [List.length_map]; exact hlen) hcp hc0 hle ?_ ?_ p w hp
    · intro p hp
      exact ⟨t.length, List.mem_of_getLast? hlast, hp⟩
    · intro g hg
      obtain ⟨x, hx, rfl⟩ := List.mem_map.1 hg
      exact (hseg x hx).2

/-- Two numbers that are swapped by the alignment. -/
example : decategorize (fun w => if w = "25".toList ∨ w = "30".toList then "<number>".toList else w) "25 of 30".toList
    "<number> x <number>".toList "a | Source Segmentation: ( 3 , 3 ; type: X ) ( 1 , 2 ; type: X ) | Target Segmentation: 1 3 | hypkey:".toList =
    some "30 x 25".toList := by decide +kernel

/-- The hypotheses of `C258_decategorize` hold of that case. -/
example : joinWords (infoWords ["a".toList] [((3, 3), ["X".toList]), ((1, 2), ["X".toList])] [1, 3] ["hypkey:".toList]) =
    "a | Source Segmentation: ( 3 , 3 ; type: X ) ( 1 , 2 ; type: X ) | Target Segmentation: 1 3 | hypkey:".toList := by
  simp [infoWords, segWords, joinWords, Vocab.showNat, Vocab.digit]

/-! ### Annotated phrases (C259) -/

/-- The two phrases of an annotation are categorized together or not at all: just when each category occurs the same number of times in both
categorized phrases. Then a later decategorization finds as many words of each category on both sides. -/
theorem C259_annotation_paired (cz : W → W) (src trg : List W) :
    ((∀ c, IsCategory c → (src.map cz).count c = (trg.map cz).count c) → categAnn cz src trg = (src.map cz, trg.map cz)) ∧
    ((∃ c, IsCategory c ∧ (src.map cz).count c ≠ (trg.map cz).count c) → categAnn cz src trg = (src, trg)) := by
  have key : paired (src.map cz) (trg.map cz) = true ↔ ∀ c, IsCategory c → (src.map cz).count c = (trg.map cz).count c := by
    unfold paired
    rw [List.all_eq_true]
    constructor
    · intro h c hc
      have := h c (by
        have := (isCateg_iff c).2 hc
        unfold isCateg at this
        simpa using this)
      simpa using this
    · intro h c hc
      have := h c ((isCateg_iff c).1 (by unfold isCateg; simpa using hc))
      simpa using this
  unfold categAnn
  constructor
  · intro h; rw [if_pos (key.2 h)]
  · rintro ⟨c, hc, hne⟩
    rw [if_neg (fun h => hne (key.1 h c hc))]

example : categAnn (fun w => if w = "7".toList then "<digit>".toList else w) ["page".toList, "7".toList] ["7".toList, "pg".toList] =
    (["page".toList, "<digit>".toList], ["<digit>".toList, "pg".toList]) := by decide +kernel

end Thot.Preproc
