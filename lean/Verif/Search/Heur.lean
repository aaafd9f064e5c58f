import Verif.Search.Order
import Verif.Search.Exhaust

/-!
Property C90: the "local t" heuristic.  Its table holds, for every source segment, the best way of translating it as a sequence of
phrases; the heuristic of a hypothesis never underestimates a completion whose score is local to its phrases.
-/
namespace Thot.Search
open Thot.StrProc (Str)
open Thot.Meta (MD Segm)

/-! ### Model -/

/-- What the heuristic uses: `-FLT_MAX`, `unkWordScoreHeur` and the phrase and language model scores of a phrase pair, as arbitrary
values. _pbTransModel.h:1176-1186, 1245-1249, 1288-1346. -/
structure Heur where
  worst : Int
  unk : Int
  sc : List Str → List Str → Int

/-- `heuristicScoreVec`: `t y x`. -/
abbrev Tab := Nat → Nat → Int

/-- `heuristicScoreVec[y][x]=v`. -/
def Tab.upd (t : Tab) (y x : Nat) (v : Int) : Tab := fun y' x' => if y' = y ∧ x' = x then v else t y' x'

/-- The options of a segment: none for a segment longer than the limit. _pbTransModel.h:1229-1241. -/
def heurOptions (M : Model) (I : Input) (l r : Nat) : List (Int × List Str) :=
  if r - l + 1 > M.A then [] else nbestTrans M (srcPhrase I.src l r)

/-- `bestScore_ts`. _pbTransModel.h:1243-1255. -/
def bestOption (H : Heur) (sp : List Str) : List (Int × List Str) → Int → Int
  | [], b => b
  | o :: os, b => bestOption H sp os (if b < H.sc sp o.2 then H.sc sp o.2 else b)

/-- The loop over the compositions; `k` of them left. _pbTransModel.h:1283-1290. -/
def compLoop (J y x : Nat) (t : Tab) : Nat → Nat → Int → Int
  | 0, _, v => v
  | k + 1, z, v => compLoop J y x t k (z + 1) (if v < t z x + t y (J - 2 - z) then t z x + t y (J - 2 - z) else v)

/-- One cell. _pbTransModel.h:1222-1291. -/
def fillCell (M : Model) (H : Heur) (I : Input) (J y : Nat) (t : Tab) (x : Nat) : Tab :=
  let os := heurOptions M I (J - x) (y + 1)
  let b := bestOption H (srcPhrase I.src (J - x) (y + 1)) os H.worst
  if x = J - y - 1 then t.upd y x (if os.length ≠ 0 then b else H.unk)
  else t.upd y x (compLoop J y x t (y - (J - x - 1)) (J - x - 1) (if os.length ≠ 0 then b else H.worst))

/-- One row. _pbTransModel.h:1221. -/
def fillRow (M : Model) (H : Heur) (I : Input) (J : Nat) (t : Tab) (y : Nat) : Tab :=
  (List.range' (J - y - 1) (y + 1)).foldl (fillCell M H I J y) t

/-- `initHeuristicLocalt`. _pbTransModel.h:1203-1294. -/
def heurTable (M : Model) (H : Heur) (I : Input) : Tab :=
  (List.range I.src.length).foldl (fillRow M H I I.src.length) fun _ _ => H.worst

/-- `getLocalTmHeurScore`. _pbTransModel.h:1501-1514. -/
def localT (M : Model) (H : Heur) (I : Input) (d : HypData) : Int :=
  ((extractGaps I.src.length (covered d)).map fun g => heurTable M H I (g.2 - 1) (I.src.length - g.1)).sum

/-! ### Specification -/

/-- `b` is the greatest element of `p`. -/
def Greatest (p : Int → Prop) (b : Int) : Prop := p b ∧ ∀ x, p x → x ≤ b

/-- The value `v` of translating the segment `l … r` by one phrase: the best of its options (not below the constant), the value of
an unknown word, or the constant when there is no option. -/
def SegValue (M : Model) (H : Heur) (I : Input) (l r : Nat) (v : Int) : Prop :=
  if r + 1 - l ≤ M.A ∧ nbestTrans M (srcPhrase I.src l r) ≠ [] then
    Greatest (fun x => x = H.worst ∨ ∃ o ∈ nbestTrans M (srcPhrase I.src l r), x = H.sc (srcPhrase I.src l r) o.2) v
  else v = if l = r then H.unk else H.worst

/-- The values of the sequences of consecutive phrases from `l` to `r`. -/
inductive SeqValue (M : Model) (H : Heur) (I : Input) : Nat → Nat → Int → Prop where
  | one {l r v} : l ≤ r → SegValue M H I l r v → SeqValue M H I l r v
  | more {l k r v w} : l ≤ k → k < r → SegValue M H I l k v → SeqValue M H I (k + 1) r w → SeqValue M H I l r (v + w)

/-! ### The value of a phrase -/

theorem bestOption_spec (H : Heur) (sp : List Str) : ∀ (os : List (Int × List Str)) (b : Int),
    Greatest (fun x => x = b ∨ ∃ o ∈ os, x = H.sc sp o.2) (bestOption H sp os b)
  | [], b => ⟨Or.inl rfl, fun x hx => by
      rcases hx with hx | ⟨o, ho, _⟩
      · exact Int.le_of_eq hx
      · cases ho⟩
  | o :: os, b => by
    obtain ⟨h1, h2⟩ := bestOption_spec H sp os (if b < H.sc sp o.2 then H.sc sp o.2 else b)
    refine ⟨?_, fun x hx => ?_⟩
    · rw [bestOption]
      rcases h1 with h1 | ⟨o', ho', h1⟩
      · rw [h1]
        split
        · exact Or.inr ⟨o, by simp, rfl⟩
        · exact Or.inl rfl
      · exact Or.inr ⟨o', List.mem_cons_of_mem _ ho', h1⟩
    · rw [bestOption]
      have hb := h2 _ (Or.inl rfl)
      rcases hx with hx | ⟨o', ho', hx⟩
      · split at hb
        · rename_i hc; rw [if_pos hc]; omega
        · rename_i hc; rw [if_neg hc]; omega
      · rcases List.mem_cons.1 ho' with he | ho'
        · subst he
          split at hb
          · rename_i hc; rw [if_pos hc]; omega
          · rename_i hc; rw [if_neg hc]; omega
        · exact h2 _ (Or.inr ⟨o', ho', hx⟩)

/-- The value of a phrase, as the cell starts. -/
def segVal (M : Model) (H : Heur) (I : Input) (l r : Nat) : Int :=
  if (heurOptions M I l r).length ≠ 0 then bestOption H (srcPhrase I.src l r) (heurOptions M I l r) H.worst
  else if l = r then H.unk else H.worst

theorem segVal_spec (M : Model) (H : Heur) (I : Input) {l r : Nat} (hlr : l ≤ r) : SegValue M H I l r (segVal M H I l r) := by
  unfold SegValue segVal
  by_cases hA : r + 1 - l ≤ M.A
  · have he : heurOptions M I l r = nbestTrans M (srcPhrase I.src l r) := by
      unfold heurOptions; rw [if_neg (by omega)]
    rw [he]
    by_cases hn : nbestTrans M (srcPhrase I.src l r) = []
    · rw [if_neg (fun h => h.2 hn), if_neg (by simp [hn])]
    · rw [if_pos ⟨hA, hn⟩, if_pos (by simpa using hn)]
      exact bestOption_spec _ _ _ _
  · have he : heurOptions M I l r = [] := by
      unfold heurOptions; rw [if_pos (by omega)]
    rw [if_neg (fun h => hA h.1), he, if_neg (by simp)]

theorem segValue_unique {M : Model} {H : Heur} {I : Input} {l r : Nat} {v w : Int} (hv : SegValue M H I l r v)
    (hw : SegValue M H I l r w) : v = w := by
  unfold SegValue at hv hw
  split at hv
  · rename_i h
    rw [if_pos h] at hw
    exact Int.le_antisymm (hw.2 _ hv.1) (hv.2 _ hw.1)
  · rename_i h
    rw [if_neg h] at hw
    rw [hv, hw]

/-! ### The recurrence -/

theorem SeqValue.le {M : Model} {H : Heur} {I : Input} {l r : Nat} {v : Int} (h : SeqValue M H I l r v) : l ≤ r := by
  cases h with
  | one h _ => exact h
  | more h1 h2 _ _ => omega

theorem SeqValue.append {M : Model} {H : Heur} {I : Input} {l k r : Nat} {v w : Int} (h : SeqValue M H I l k v)
    (hw : SeqValue M H I (k + 1) r w) : SeqValue M H I l r (v + w) := by
  induction h with
  | one h hv => exact .more h hw.le hv hw
  | @more l k' k v v' h1 h2 hv _ ih =>
    have h3 := hw.le
    rw [Int.add_assoc]
    exact .more h1 (by omega) hv (ih hw)

/-- The best value of a segment. -/
def BestSeq (M : Model) (H : Heur) (I : Input) (l r : Nat) (v : Int) : Prop := Greatest (SeqValue M H I l r) v

theorem compLoop_spec (J y x : Nat) (t : Tab) : ∀ (k z : Nat) (v : Int),
    Greatest (fun w => w = v ∨ ∃ z', z ≤ z' ∧ z' < z + k ∧ w = t z' x + t y (J - 2 - z')) (compLoop J y x t k z v)
  | 0, z, v => ⟨Or.inl rfl, fun w hw => by
      rcases hw with hw | ⟨z', h1, h2, _⟩
      · exact Int.le_of_eq hw
      · omega⟩
  | k + 1, z, v => by
    obtain ⟨h1, h2⟩ := compLoop_spec J y x t k (z + 1) (if v < t z x + t y (J - 2 - z) then t z x + t y (J - 2 - z) else v)
    rw [compLoop]
    refine ⟨?_, fun w hw => ?_⟩
    · rcases h1 with h1 | ⟨z', h3, h4, h1⟩
      · rw [h1]
        split
        · exact Or.inr ⟨z, Nat.le_refl _, by omega, rfl⟩
        · exact Or.inl rfl
      · exact Or.inr ⟨z', by omega, by omega, h1⟩
    · have hb := h2 _ (Or.inl rfl)
      rcases hw with hw | ⟨z', h3, h4, hw⟩
      · split at hb
        · rename_i hc; rw [if_pos hc]; omega
        · rename_i hc; rw [if_neg hc]; omega
      · by_cases hz : z' = z
        · subst hz
          split at hb
          · rename_i hc; rw [if_pos hc]; omega
          · rename_i hc; rw [if_neg hc]; omega
        · exact h2 _ (Or.inr ⟨z', by omega, by omega, hw⟩)

theorem best_of_comp {M : Model} {H : Heur} {I : Input} {l r : Nat} (hlr : l ≤ r) {c : Nat → Nat → Int} {v : Int}
    (hl : ∀ k, l ≤ k → k < r → BestSeq M H I l k (c l k)) (hr : ∀ k, l ≤ k → k < r → BestSeq M H I (k + 1) r (c (k + 1) r))
    (hv : Greatest (fun w => w = segVal M H I l r ∨ ∃ k, l ≤ k ∧ k < r ∧ w = c l k + c (k + 1) r) v) : BestSeq M H I l r v := by
  refine ⟨?_, fun w hw => ?_⟩
  · rcases hv.1 with h | ⟨k, h1, h2, h⟩
    · rw [h]; exact .one hlr (segVal_spec M H I hlr)
    · rw [h]; exact (hl k h1 h2).1.append (hr k h1 h2).1
  · cases hw with
    | one _ hs => rw [segValue_unique hs (segVal_spec M H I hlr)]; exact hv.2 _ (Or.inl rfl)
    | @more _ k _ a b h1 h2 ha hb =>
      have e1 := (hl k h1 h2).2 _ (.one h1 ha)
      have e2 := (hr k h1 h2).2 _ hb
      have e3 := hv.2 _ (Or.inr ⟨k, h1, h2, rfl⟩)
      omega

/-! ### Filling the table -/

/-- The cells of the rows before `y` and those of row `y` for segments beginning after `l` hold the best values. -/
def Filled (M : Model) (H : Heur) (I : Input) (J : Nat) (t : Tab) (y l : Nat) : Prop :=
  ∀ a b, 1 ≤ a → a ≤ b → b ≤ J → (b < y + 1 ∨ b = y + 1 ∧ l < a) → BestSeq M H I a b (t (b - 1) (J - a))

theorem fillCell_spec {M : Model} {H : Heur} {I : Input} {J y : Nat} (hy : y < J) {t : Tab} {l : Nat} (h1 : 1 ≤ l) (hl : l ≤ y + 1)
    (ht : Filled M H I J t y l) : Filled M H I J (fillCell M H I J y t (J - l)) y (l - 1) := by
  have key : ∃ v, fillCell M H I J y t (J - l) = t.upd y (J - l) v ∧ BestSeq M H I l (y + 1) v := by
    unfold fillCell
    dsimp only
    have e1 : J - (J - l) = l := by omega
    rw [e1]
    by_cases hx : J - l = J - y - 1
    · have hly : l = y + 1 := by omega
      rw [if_pos hx]
      refine ⟨_, rfl, ?_⟩
      subst hly
      refine best_of_comp (c := fun _ _ => 0) (Nat.le_refl _) (fun k _ _ => by omega) (fun k _ _ => by omega) ?_
      have : (if (heurOptions M I (y + 1) (y + 1)).length ≠ 0 then
          bestOption H (srcPhrase I.src (y + 1) (y + 1)) (heurOptions M I (y + 1) (y + 1)) H.worst else H.unk) =
          segVal M H I (y + 1) (y + 1) := by
        unfold segVal; rw [if_pos rfl]
      rw [this]
      exact ⟨Or.inl rfl, fun x hx => by
        rcases hx with hx | ⟨k, _, _, _⟩
        · exact Int.le_of_eq hx
        · omega⟩
    · rw [if_neg hx]
      refine ⟨_, rfl, ?_⟩
      have hly : l < y + 1 := by omega
      have : (if (heurOptions M I l (y + 1)).length ≠ 0 then
          bestOption H (srcPhrase I.src l (y + 1)) (heurOptions M I l (y + 1)) H.worst else H.worst) = segVal M H I l (y + 1) := by
        unfold segVal; rw [if_neg (show ¬ l = y + 1 by omega)]
      rw [this]
      refine best_of_comp (c := fun a b => t (b - 1) (J - a)) (by omega)
        (fun k h3 h4 => ht l k h1 h3 (by omega) (Or.inl h4))
        (fun k h3 h4 => ht (k + 1) (y + 1) (by omega) (by omega) (by omega) (Or.inr ⟨rfl, by omega⟩)) ?_
      obtain ⟨g1, g2⟩ := compLoop_spec J y (J - l) t (y - (l - 1)) (l - 1) (segVal M H I l (y + 1))
      refine ⟨?_, fun w hw => g2 _ ?_⟩
      · rcases g1 with g1 | ⟨z, h3, h4, g1⟩
        · exact Or.inl g1
        · refine Or.inr ⟨z + 1, by omega, by omega, ?_⟩
          rw [g1]
          have : J - 2 - z = J - (z + 1 + 1) := by omega
          rw [this]; rfl
      · rcases hw with hw | ⟨k, h3, h4, hw⟩
        · exact Or.inl hw
        · refine Or.inr ⟨k - 1, by omega, by omega, ?_⟩
          rw [hw]
          have : J - 2 - (k - 1) = J - (k + 1) := by omega
          rw [this]; rfl
  obtain ⟨v, he, hb⟩ := key
  rw [he]
  intro a b ha hab hbJ hor
  unfold Tab.upd
  by_cases hc : b - 1 = y ∧ J - a = J - l
  · rw [if_pos hc]
    have e1 : b = y + 1 := by omega
    have e2 : a = l := by omega
    rw [e1, e2]; exact hb
  · rw [if_neg hc]
    refine ht a b ha hab hbJ ?_
    rcases hor with h | ⟨h, h'⟩
    · exact Or.inl h
    · right; refine ⟨h, ?_⟩
      have : J - a ≠ J - l := fun hh => hc ⟨by omega, hh⟩
      omega

theorem fillCells_spec {M : Model} {H : Heur} {I : Input} {J y : Nat} (hy : y < J) : ∀ (k : Nat) {t : Tab} {l : Nat}, k ≤ l → l ≤ y + 1 →
    Filled M H I J t y l → Filled M H I J ((List.range' (J - l) k).foldl (fillCell M H I J y) t) y (l - k)
  | 0, _, _, _, _, ht => ht
  | k + 1, t, l, hk, hl, ht => by
    rw [List.range'_succ, List.foldl_cons]
    have h1 := fillCell_spec hy (by omega) hl ht
    have h2 := fillCells_spec hy k (l := l - 1) (by omega) (by omega) h1
    have e : J - (l - 1) = J - l + 1 := by omega
    rw [e] at h2
    have e2 : l - 1 - k = l - (k + 1) := by omega
    rw [e2] at h2
    exact h2

theorem fillRow_spec {M : Model} {H : Heur} {I : Input} {J y : Nat} (hy : y < J) {t : Tab} (ht : Filled M H I J t y (y + 1)) :
    Filled M H I J (fillRow M H I J t y) (y + 1) (y + 2) := by
  have h := fillCells_spec hy (y + 1) (l := y + 1) (Nat.le_refl _) (Nat.le_refl _) ht
  have e : J - (y + 1) = J - y - 1 := by omega
  rw [e, Nat.sub_self] at h
  intro a b ha hab hb hor
  rcases hor with h' | ⟨h', h''⟩
  · by_cases hby : b < y + 1
    · exact h a b ha hab hb (Or.inl hby)
    · exact h a b ha hab hb (Or.inr ⟨by omega, by omega⟩)
  · omega

theorem fillRows_spec {M : Model} {H : Heur} {I : Input} {J : Nat} : ∀ (k y : Nat) {t : Tab}, y + k ≤ J → Filled M H I J t y (y + 1) →
    Filled M H I J ((List.range' y k).foldl (fillRow M H I J) t) (y + k) (y + k + 1)
  | 0, _, _, _, ht => ht
  | k + 1, y, t, hk, ht => by
    rw [List.range'_succ, List.foldl_cons]
    have := fillRows_spec k (y + 1) (by omega) (fillRow_spec (by omega) ht)
    have e : y + 1 + k = y + (k + 1) := by omega
    rw [e] at this
    exact this

/-! ### C90 -/

/-- Every cell of the table is the best value of translating the segment as a sequence of phrases. -/
theorem C90_table (M : Model) (H : Heur) (I : Input) {l r : Nat} (h1 : 1 ≤ l) (h2 : l ≤ r) (h3 : r ≤ I.src.length) :
    Greatest (SeqValue M H I l r) (heurTable M H I (r - 1) (I.src.length - l)) := by
  unfold heurTable
  rw [List.range_eq_range']
  have := fillRows_spec (M := M) (H := H) (I := I) (J := I.src.length) I.src.length 0 (t := fun _ _ => H.worst) (by omega)
    (fun a b _ _ _ hor => by omega)
  exact this l r h1 h2 h3 (Or.inl (by omega))

/-- The heuristic of a hypothesis is the sum of the best values of its gaps. -/
theorem C90_gaps (M : Model) (H : Heur) (I : Input) (d : HypData) :
    ∃ f : Segm → Int, (∀ g ∈ extractGaps I.src.length (covered d), Greatest (SeqValue M H I g.1 g.2) (f g)) ∧
      localT M H I d = ((extractGaps I.src.length (covered d)).map f).sum := by
  refine ⟨fun g => heurTable M H I (g.2 - 1) (I.src.length - g.1), fun g hg => ?_, rfl⟩
  have := (C80_gaps _ _ _).1 hg
  exact C90_table M H I this.first this.order this.last

/-! ### Admissibility -/

/-- Sum of the values of the gaps found by the loop. -/
def gapSum (C : Nat → Nat → Int) (cov : Nat → Bool) (m j : Nat) (f : Option Nat) : Int :=
  ((gapsLoop cov m j f).map fun g => C g.1 g.2).sum

/-- The values of adjacent segments add up to at most the value of their union. -/
def Super (n : Nat) (C : Nat → Nat → Int) : Prop := ∀ a k b, 1 ≤ a → a ≤ k → k < b → b ≤ n → C a k + C (k + 1) b ≤ C a b

theorem gapSum_zero_none (C : Nat → Nat → Int) (cov : Nat → Bool) (j : Nat) : gapSum C cov 0 j none = 0 := rfl

theorem gapSum_zero_some (C : Nat → Nat → Int) (cov : Nat → Bool) (j f : Nat) : gapSum C cov 0 j (some f) = C f (j - 1) := by
  simp [gapSum, gapsLoop]

theorem gapSum_succ_none (C : Nat → Nat → Int) (cov : Nat → Bool) (m j : Nat) :
    gapSum C cov (m + 1) j none = if cov j then gapSum C cov m (j + 1) none else gapSum C cov m (j + 1) (some j) := by
  unfold gapSum; rw [gapsLoop]; split <;> rfl

theorem gapSum_succ_some (C : Nat → Nat → Int) (cov : Nat → Bool) (m j f : Nat) :
    gapSum C cov (m + 1) j (some f) =
      if cov j then C f (j - 1) + gapSum C cov m (j + 1) none else gapSum C cov m (j + 1) (some f) := by
  unfold gapSum; rw [gapsLoop]; split
  · rw [List.map_cons, List.sum_cons]
  · rfl

/-- Opening the gap later loses at least the value of the words skipped. -/
theorem gapSum_split {n : Nat} {C : Nat → Nat → Int} (hC : Super n C) (cov : Nat → Bool) : ∀ (m j f k : Nat), 1 ≤ f → f < k → k < j →
    j + m ≤ n + 1 → C f (k - 1) + gapSum C cov m j (some k) ≤ gapSum C cov m j (some f)
  | 0, j, f, k, h1, h2, h3, h4 => by
    rw [gapSum_zero_some, gapSum_zero_some]
    have := hC f (k - 1) (j - 1) h1 (by omega) (by omega) (by omega)
    have e : k - 1 + 1 = k := by omega
    rw [e] at this
    exact this
  | m + 1, j, f, k, h1, h2, h3, h4 => by
    rw [gapSum_succ_some, gapSum_succ_some]
    split
    · have := hC f (k - 1) (j - 1) h1 (by omega) (by omega) (by omega)
      have e : k - 1 + 1 = k := by omega
      rw [e] at this
      omega
    · exact gapSum_split hC cov m (j + 1) f k h1 h2 (by omega) (by omega)

theorem gapSum_close {n : Nat} {C : Nat → Nat → Int} (hC : Super n C) (cov : Nat → Bool) : ∀ (m j f : Nat), 1 ≤ f → f < j →
    j + m ≤ n + 1 → C f (j - 1) + gapSum C cov m j none ≤ gapSum C cov m j (some f)
  | 0, j, f, h1, h2, h3 => by
    rw [gapSum_zero_some, gapSum_zero_none]; omega
  | m + 1, j, f, h1, h2, h3 => by
    rw [gapSum_succ_some, gapSum_succ_none]
    split
    · omega
    · exact gapSum_split hC cov m (j + 1) f j h1 h2 (by omega) (by omega)

theorem gapSum_congr (C : Nat → Nat → Int) {cov cov' : Nat → Bool} : ∀ (m j : Nat) (f : Option Nat), (∀ i, j ≤ i → cov i = cov' i) →
    gapSum C cov m j f = gapSum C cov' m j f
  | 0, j, none, _ => rfl
  | 0, j, some f, _ => rfl
  | m + 1, j, none, h => by
    rw [gapSum_succ_none, gapSum_succ_none, h j (Nat.le_refl _), gapSum_congr C m (j + 1) none fun i hi => h i (by omega),
      gapSum_congr C m (j + 1) (some j) fun i hi => h i (by omega)]
  | m + 1, j, some f, h => by
    rw [gapSum_succ_some, gapSum_succ_some, h j (Nat.le_refl _), gapSum_congr C m (j + 1) none fun i hi => h i (by omega),
      gapSum_congr C m (j + 1) (some f) fun i hi => h i (by omega)]

/-- Inside the segment that is being covered. -/
theorem gapSum_inside {n : Nat} {C : Nat → Nat → Int} (hC : Super n C) {cov cov' : Nat → Bool} {l r : Nat}
    (hin : ∀ j, l ≤ j → j ≤ r → cov j = false ∧ cov' j = true) (hout : ∀ j, r < j → cov j = cov' j) : ∀ (m j f : Nat), 1 ≤ f → f < j →
    l < j → j ≤ r + 1 → r + 1 ≤ j + m → j + m ≤ n + 1 → C f r + gapSum C cov' m j none ≤ gapSum C cov m j (some f)
  | m, j, f, h1, h2, h3, h4, h5, h6 => by
    by_cases hj : j = r + 1
    · subst hj
      rw [gapSum_congr C m (r + 1) (some f) (cov := cov) (cov' := cov') fun i hi => hout i (by omega)]
      exact gapSum_close hC cov' m (r + 1) f h1 h2 h6
    · match m, h5, h6 with
      | 0, h5, h6 => omega
      | m + 1, h5, h6 =>
        rw [gapSum_succ_some, gapSum_succ_none, (hin j (by omega) (by omega)).1, (hin j (by omega) (by omega)).2]
        simp only [Bool.false_eq_true, if_false, if_true]
        exact gapSum_inside hC hin hout m (j + 1) f h1 (by omega) (by omega) (by omega) (by omega) (by omega)
  termination_by m => m

/-- Covering a segment lowers the sum by at least the value of the segment. -/
theorem gapSum_cover {n : Nat} {C : Nat → Nat → Int} (hC : Super n C) {cov cov' : Nat → Bool} {l r : Nat} (hlr : l ≤ r)
    (hin : ∀ j, l ≤ j → j ≤ r → cov j = false ∧ cov' j = true) (hb : ∀ j, j < l → cov j = cov' j) (hout : ∀ j, r < j → cov j = cov' j) :
    ∀ (m j : Nat) (f : Option Nat), 1 ≤ j → j ≤ l → r + 1 ≤ j + m → j + m ≤ n + 1 → (∀ x, f = some x → 1 ≤ x ∧ x < j) →
      C l r + gapSum C cov' m j f ≤ gapSum C cov m j f
  | 0, j, f, _, h1, h2, _, _ => by omega
  | m + 1, j, f, h0, h1, h2, h3, h4 => by
    by_cases hj : j = l
    · subst hj
      have hjj := hin j (Nat.le_refl _) hlr
      cases f with
      | none =>
        rw [gapSum_succ_none, gapSum_succ_none, hjj.1, hjj.2]
        simp only [Bool.false_eq_true, if_false, if_true]
        exact gapSum_inside hC hin hout m (j + 1) j h0 (by omega) (by omega) (by omega) (by omega) (by omega)
      | some x =>
        obtain ⟨x1, x2⟩ := h4 x rfl
        rw [gapSum_succ_some, gapSum_succ_some, hjj.1, hjj.2]
        simp only [Bool.false_eq_true, if_false, if_true]
        have e1 := gapSum_inside hC hin hout m (j + 1) x x1 (by omega) (by omega) (by omega) (by omega) (by omega)
        have e2 := hC x (j - 1) r x1 (by omega) (by omega) (by omega)
        have e3 : j - 1 + 1 = j := by omega
        rw [e3] at e2
        omega
    · have hjj := hb j (by omega)
      cases f with
      | none =>
        rw [gapSum_succ_none, gapSum_succ_none, hjj]
        split
        · exact gapSum_cover hC hlr hin hb hout m (j + 1) none (by omega) (by omega) (by omega) (by omega) (fun x h => by cases h)
        · exact gapSum_cover hC hlr hin hb hout m (j + 1) (some j) (by omega) (by omega) (by omega) (by omega)
            (fun x h => by injection h with h; omega)
      | some x =>
        obtain ⟨x1, x2⟩ := h4 x rfl
        rw [gapSum_succ_some, gapSum_succ_some, hjj]
        split
        · have := gapSum_cover hC hlr hin hb hout m (j + 1) none (by omega) (by omega) (by omega) (by omega) (fun x h => by cases h)
          omega
        · exact gapSum_cover hC hlr hin hb hout m (j + 1) (some x) (by omega) (by omega) (by omega) (by omega)
            (fun y h => by injection h with h; omega)

/-- The scores of the extensions are bounded by the estimations of the phrases used: the options of a segment, and the unknown
words. -/
structure LocalScores (M : Model) (H : Heur) (I : Input) : Prop where
  opt : ∀ d l r o, o ∈ nbestTrans M (srcPhrase I.src l r) → M.extScore d (extend d l r o.2) ≤ H.sc (srcPhrase I.src l r) o.2
  unk : ∀ d j, M.opts (srcPhrase I.src j j) = [] → M.extScore d (extend d j j [unkWord]) ≤ H.unk

theorem localT_eq (M : Model) (H : Heur) (I : Input) (d : HypData) :
    localT M H I d = gapSum (fun a b => heurTable M H I (b - 1) (I.src.length - a)) (covered d) I.src.length 1 none := rfl

theorem super_table (M : Model) (H : Heur) (I : Input) : Super I.src.length fun a b => heurTable M H I (b - 1) (I.src.length - a) := by
  intro a k b h1 h2 h3 h4
  exact (C90_table M H I h1 (by omega) h4).2 _
    ((C90_table M H I h1 h2 (by omega)).1.append (C90_table M H I (l := k + 1) (by omega) (by omega) h4).1)

theorem step_heur {M : Model} {H : Heur} {I : Input} (hmd : I.md.srcPhrTransMap = []) (hs : LocalScores M H I) {h h' : Hyp} {xs : List Hyp}
    (he : expandMode .trans M I h = some xs) (hm : h' ∈ xs) : h'.score + localT M H I h'.data ≤ h.score + localT M H I h.data := by
  obtain ⟨l, r, trg, hd, hg, h1, h2, h3, hfree, hlen, _, hsc⟩ := step_spec he hm
  have hA : r + 1 - l ≤ M.A := by
    rcases hlen r h2 (Nat.le_refl _) with h | h
    · exact h
    · simp [exempt, Meta.srcPhrAffectedByConstraint, hmd] at h
  have hgen : ∃ e ∈ transForGap M I l r, h'.data = extend h.data l r e.2 := by
    obtain ⟨hx, _⟩ : h'.data ∈ hypDataForGap M I h.data l r ∧ keepExt I h'.data = some true := hg
    obtain ⟨e, e1, e2⟩ := List.mem_map.1 hx
    exact ⟨e, e1, e2.symm⟩
  obtain ⟨e, he1, he2⟩ := hgen
  have hbound : M.extScore h.data h'.data ≤ segVal M H I l r := by
    have hv := segVal_spec M H I h2
    unfold SegValue at hv
    unfold transForGap at he1
    have haff : Meta.srcPhrAffectedByConstraint I.md (l, r) = false := by simp [Meta.srcPhrAffectedByConstraint, hmd]
    rw [haff, if_neg (by simp)] at he1
    rw [he2]
    split at he1
    · rename_i hu
      obtain ⟨hu1, hu2⟩ := hu
      subst hu1
      rw [List.mem_singleton] at he1
      subst he1
      have hop : M.opts (srcPhrase I.src l l) = [] := by
        have := (unseen_iff h1 h3).1 hu2
        rw [srcPhrase_words h1]
        exact this
      have hnb : nbestTrans M (srcPhrase I.src l l) = [] := by simp [nbestTrans, hop]
      rw [if_neg (fun h => h.2 hnb), if_pos rfl] at hv
      rw [hv]
      exact hs.unk _ _ hop
    · rw [if_pos ⟨hA, List.ne_nil_of_mem he1⟩] at hv
      exact Int.le_trans (hs.opt _ _ _ _ he1) (hv.2 _ (Or.inr ⟨e, he1, rfl⟩))
  have htab : segVal M H I l r ≤ heurTable M H I (r - 1) (I.src.length - l) :=
    (C90_table M H I h1 h2 h3).2 _ (.one h2 (segVal_spec M H I h2))
  have hcov := gapSum_cover (super_table M H I) h2 (cov := covered h.data) (cov' := covered h'.data)
    (fun j hj hj' => ⟨hfree j hj hj', by rw [hd, covered_extend]; simp [hj, hj']⟩)
    (fun j hj => by rw [hd, covered_extend]; simp; omega)
    (fun j hj => by rw [hd, covered_extend]; simp; omega)
    I.src.length 1 none (Nat.le_refl _) h1 (by omega) (by omega) (fun x h => by cases h)
  rw [localT_eq, localT_eq, hsc]
  omega

theorem ext_heur {M : Model} {H : Heur} {I : Input} (hmd : I.md.srcPhrTransMap = []) (hs : LocalScores M H I) {h c : Hyp}
    (he : Ext .trans M I h c) : c.score + localT M H I c.data ≤ h.score + localT M H I h.data := by
  induction he with
  | refl => exact Int.le_refl _
  | step _ h1 h2 ih => exact Int.le_trans (step_heur hmd hs h1 h2) ih

theorem localT_complete {M : Model} (H : Heur) {I : Input} {h : Hyp} (hr : Reach .trans M I h) (hc : Complete I h) :
    localT M H I h.data = 0 := by
  have hcov := (isComplete_iff (C81_wf hr)).1 hc
  unfold localT
  cases hg : extractGaps I.src.length (covered h.data) with
  | nil => rfl
  | cons g gs =>
    have hgap := (C80_gaps _ _ _).1 (show g ∈ extractGaps I.src.length (covered h.data) by rw [hg]; exact List.mem_cons_self)
    have := hgap.free g.1 (Nat.le_refl _) hgap.order
    rw [hcov g.1 hgap.first (Nat.le_trans hgap.order hgap.last)] at this
    cases this

/-- Without constraints, if the score of an extension never exceeds the estimation of its phrase, the heuristic never
underestimates a completion, and it is 0 for complete hypotheses. -/
theorem C90_admissible {M : Model} {H : Heur} {I : Input} (hh : M.heur = localT M H I) (hmd : I.md.srcPhrTransMap = [])
    (hs : LocalScores M H I) : Admissible .trans M I where
  bound := by
    intro h c hr he hc
    have h1 := ext_heur hmd hs he
    have hrc : Reach .trans M I c := by
      clear hc h1
      induction he with
      | refl => exact hr
      | step _ h1 h2 ih => exact ih.step h1 h2
    rw [localT_complete H hrc hc] at h1
    rw [hh]
    omega
  zero := by
    intro c hr hc
    rw [hh]
    exact localT_complete H hr hc

/-- Hence best-first search with this heuristic returns a translation with the best score. -/
theorem C90_optimal {S : Type} [DecidableEq S] {M : Model} {H : Heur} {I : Input} (hI : FromRaw I) (hl : lengthsOk .trans I = true)
    (hh : M.heur = localT M H I) (hmd : I.md.srcPhrTransMap = []) (hs : LocalScores M H I) :
    ∃ B, ∀ (D : Dec S) (ms : MultiStack.MS S HypData), D.breadthFirst = false → ms.bf = false →
      D.I = 1 → B ≤ ms.max → B < D.maxIter → StateContract .trans D M I → InRange .trans D M I →
      ∃ L, translate .trans D M I ms = some L ∧
        ((∃ c, Reach .trans M I c ∧ isComplete I.src.length c.data = true) →
          Reach .trans M I L.result ∧ isComplete I.src.length L.result.data = true ∧
          ∀ c, Reach .trans M I c → isComplete I.src.length c.data = true → c.score ≤ L.result.score) := by
  obtain ⟨B, hB⟩ := C86_best_first_partial (S := S) (m := .trans) (M := M) (I := I) (fun _ => hI) hl
  exact ⟨B, fun D ms h1 h2 h3 h4 h5 h6 h7 => hB D ms h1 h2 h3 h4 h5 h6 h7 (C90_admissible hh hmd hs)⟩

/-- An estimation of phrases: one per word, unknown words three. -/
def exH : Heur := ⟨-1000, -3, fun _ t => -(t.length : Int)⟩

/-- The table for the sentence `a b u`: `a` is translated by one word, `b` by two, `u` is unknown. -/
example : heurTable exModel exH { exInput with src := ["a".toList, "b".toList, "u".toList] } 2 2 = -6 ∧
    heurTable exModel exH { exInput with src := ["a".toList, "b".toList, "u".toList] } 1 2 = -3 ∧
    heurTable exModel exH { exInput with src := ["a".toList, "b".toList, "u".toList] } 2 1 = -5 := by decide +kernel

/-- A model whose score is minus the number of target words, with this heuristic. -/
def exHModel : Model := { exModel with
  extScore := fun d d' => (d.ntarget.length : Int) - d'.ntarget.length
  heur := localT exModel ⟨-1000, -1, fun _ t => -(t.length : Int)⟩ exOInput }

/-- It meets the conditions, and the null hypothesis of `a b` gets the heuristic -3, the score of its best translation. -/
example : exHModel.heur = localT exHModel ⟨-1000, -1, fun _ t => -(t.length : Int)⟩ exOInput ∧ exOInput.md.srcPhrTransMap = [] ∧
    LocalScores exHModel ⟨-1000, -1, fun _ t => -(t.length : Int)⟩ exOInput ∧ exHModel.heur nullData = -3 ∧
    ∃ h, Reach .trans exHModel exOInput h ∧ isComplete 2 h.data = true ∧ h.score = -3 := by
  refine ⟨rfl, rfl, ⟨fun d l r o _ => ?_, fun d j _ => ?_⟩, by decide +kernel, ?_⟩
  · show (d.ntarget.length : Int) - ((d.ntarget ++ o.2).length : Nat) ≤ -(o.2.length : Int)
    rw [List.length_append]; omega
  · show (d.ntarget.length : Int) - ((d.ntarget ++ [unkWord]).length : Nat) ≤ -1
    rw [List.length_append]; simp; omega
  · refine ⟨⟨-3, extend (extend nullData 1 1 ["x".toList]) 2 2 ["y".toList, "z".toList]⟩, ?_, by decide +kernel, rfl⟩
    refine .step (h := ⟨-1, extend nullData 1 1 ["x".toList]⟩) (.step .null
        (hs := (expandMode .trans exHModel exOInput ⟨0, nullData⟩).getD []) (by decide +kernel) (by decide +kernel))
      (hs := (expandMode .trans exHModel exOInput ⟨-1, extend nullData 1 1 ["x".toList]⟩).getD []) (by decide +kernel) (by decide +kernel)

end Thot.Search
