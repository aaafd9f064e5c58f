import Verif.WgProc.NbProps

/-! The tables of the processor as functions of the position in the prefix. -/

namespace Thot.WgProc

open Thot.WordGraph (WG Arc small Live Path Allowed Topo WF FinalOk)
open Thot.EditDist (Costs Op PWord pairC prefWords)

/-! ## Functions -/

/-- The cell of the edit distance between a word of the graph and a word of the prefix. -/
def cellV (k : Costs) (x : Str) (y : PWord) (d up left : Score) : Score × Op :=
  if left + k.ins * y.str.length <
      (if up + k.del * x.length < d + pairC k x y then up + k.del * x.length else d + pairC k x y) then
    (left + k.ins * y.str.length, .ins)
  else if up + k.del * x.length < d + pairC k x y then
    (up + k.del * x.length, if k.del * x.length = 0 then .prefDel else .del)
  else (d + pairC k x y, .hit)

/-- The row of the word `x` after the row `u`. -/
def row (k : Costs) (Y : Nat → PWord) (x : Str) (u : Nat → Score) : Nat → Score × Op
  | 0 => (u 0 + k.del * x.length, .none)
  | j + 1 => cellV k x (Y j) (u j) (u (j + 1)) (row k Y x u j).1

/-- The row of the last word of a list of words. -/
def rowWords (k : Costs) (Y : Nat → PWord) : List Str → (Nat → Score) → Nat → Score
  | [], u => u
  | x :: xs, u => rowWords k Y xs fun j => (row k Y x u j).1

/-- The vectors of the words of an arc. -/
def esis (k : Costs) (Y : Nat → PWord) (L : Nat) : List Str → (Nat → Score) → List Esi
  | [], _ => []
  | x :: xs, u => ⟨(List.range L).map fun j => (row k Y x u j).1, (List.range L).map fun j => (row k Y x u j).2⟩ ::
    esis k Y L xs fun j => (row k Y x u j).1

/-- The row of the initial state. -/
def row0 (k : Costs) (raw : Nat → Str) : Nat → Score
  | 0 => 0
  | j + 1 => row0 k raw j + k.ins * (raw j).length

/-- The arc `n` if it is not pruned. -/
def liveArc (g : WG) (n : Nat) : Option Arc := if g.pruned[n]? = some false then g.arcs[n]? else none

theorem liveArc_iff {g : WG} {n : Nat} {a : Arc} : liveArc g n = some a ↔ Live g n a := by
  unfold liveArc Live
  split
  · rename_i h; simp [h]
  · rename_i h; simp [h]

/-- The state is the initial one, or one of the first `n` arcs enters it. -/
def fed (g : WG) : Nat → Nat → Bool
  | 0, s => s == 0
  | n + 1, s => fed g n s || (liveArc g n).map Arc.succ == some s

/-- `wgScoreForState` after `n` arcs. -/
def wgT (g : WG) : Nat → Nat → Score
  | 0, s => if s = 0 then g.init else 0
  | n + 1, s =>
    match liveArc g n with
    | none => wgT g n s
    | some a => if s = a.succ then wgT g n a.pred + a.score else wgT g n s

/-- The cell of a state and a position after `n` arcs. -/
def tab (g : WG) (P : Par) (raw : Nat → Str) (Y : Nat → PWord) : Nat → Nat → Nat → Cell
  | 0, s, j => if s = 0 then ⟨P.ecmW * (-(row0 P.k raw j)) + P.wgW * g.init, none, row0 P.k raw j⟩ else ⟨small, none, 0⟩
  | n + 1, s, j =>
    match liveArc g n with
    | none => tab g P raw Y n s j
    | some a =>
      if s = a.succ then
        relax P n (wgT g n a.pred + a.score) (tab g P raw Y n s j)
          (rowWords P.k Y a.words (fun i => (tab g P raw Y n a.pred i).scr) j)
      else tab g P raw Y n s j

/-! ## Dependence on the prefix -/

theorem row_congr {k : Costs} {Y Y' : Nat → PWord} {x : Str} {u u' : Nat → Score} {J : Nat} (hY : ∀ i < J, Y i = Y' i)
    (hu : ∀ i ≤ J, u i = u' i) : ∀ j ≤ J, row k Y x u j = row k Y' x u' j := by
  intro j
  induction j with
  | zero => intro _; simp only [row, hu 0 (Nat.zero_le _)]
  | succ j ih =>
    intro hj
    simp only [row, ih (by omega), hY j (by omega), hu j (by omega), hu (j + 1) hj]

theorem rowWords_congr {k : Costs} {Y Y' : Nat → PWord} {J : Nat} (hY : ∀ i < J, Y i = Y' i) : ∀ (ws : List Str)
    {u u' : Nat → Score}, (∀ i ≤ J, u i = u' i) → ∀ j ≤ J, rowWords k Y ws u j = rowWords k Y' ws u' j := by
  intro ws
  induction ws with
  | nil => intro u u' hu j hj; exact hu j hj
  | cons x xs ih => intro u u' hu j hj; exact ih (fun i hi => by rw [row_congr hY hu i hi]) j hj

theorem row0_congr {k : Costs} {raw raw' : Nat → Str} {J : Nat} (h : ∀ i < J, raw i = raw' i) : ∀ j ≤ J,
    row0 k raw j = row0 k raw' j := by
  intro j
  induction j with
  | zero => intro _; rfl
  | succ j ih => intro hj; simp only [row0, ih (by omega), h j (by omega)]

theorem tab_congr {g : WG} {P : Par} {raw raw' : Nat → Str} {Y Y' : Nat → PWord} {J : Nat} (hr : ∀ i < J, raw i = raw' i)
    (hY : ∀ i < J, Y i = Y' i) : ∀ (n s : Nat), ∀ j ≤ J, tab g P raw Y n s j = tab g P raw' Y' n s j := by
  intro n
  induction n with
  | zero => intro s j hj; simp only [tab, row0_congr hr j hj]
  | succ n ih =>
    intro s j hj
    simp only [tab]
    cases liveArc g n with
    | none => exact ih s j hj
    | some a =>
      simp only
      split
      · rw [ih s j hj, rowWords_congr hY a.words (fun i hi => by rw [ih a.pred i hi]) j hj]
      · exact ih s j hj

theorem esis_congr {k : Costs} {Y Y' : Nat → PWord} {J : Nat} (hY : ∀ i < J, Y i = Y' i) : ∀ (ws : List Str)
    {u u' : Nat → Score}, (∀ i ≤ J, u i = u' i) → esis k Y (J + 1) ws u = esis k Y' (J + 1) ws u' := by
  intro ws
  induction ws with
  | nil => intros; rfl
  | cons x xs ih =>
    intro u u' hu
    simp only [esis]
    rw [ih (fun i hi => by rw [row_congr hY hu i hi])]
    congr 2
    · apply List.map_congr_left
      intro i hi
      rw [row_congr hY hu i (by have := List.mem_range.1 hi; omega)]
    · apply List.map_congr_left
      intro i hi
      rw [row_congr hY hu i (by have := List.mem_range.1 hi; omega)]

/-! ## The incremental row -/

theorem getElem?_range_map {A : Type} (f : Nat → A) (L j : Nat) : ((List.range L).map f)[j]? = if j < L then some (f j) else none := by
  rw [List.getElem?_map]
  split
  · rename_i h; rw [List.getElem?_range h]; rfl
  · rename_i h; rw [List.getElem?_eq_none (by simp; omega)]; rfl

theorem range_map_succ {A : Type} (f : Nat → A) (L : Nat) : (List.range (L + 1)).map f = (List.range L).map f ++ [f L] := by
  rw [List.range_succ, List.map_append]; rfl

/-- Position `j` of a vector whose first `j` elements are known. -/
theorem incrCell_ok {k : Costs} {x y : Str} {part lc : Bool} {prev new : List Score} {j : Nat} {d up left : Score}
    (h1 : prev[j]? = some d) (h2 : prev[j + 1]? = some up) (h3 : new[j]? = some left) :
    incrCell k x y part lc prev new (j + 1) = some (cellV k x (if part then .part y else .full y) d up left) := by
  unfold incrCell
  have hsc : subCost k x y part =
      some (pairC k x (if part then .part y else .full y)) := by
    unfold subCost
    cases part
    · simp only [Bool.false_eq_true, if_false, EditDist.wordSubstCost_ok, pairC]
    · simp only [if_true, EditDist.wordPrefSubstCost_ok, pairC]
  rw [hsc]
  have hy : ∀ b : Bool, (if b then PWord.part y else PWord.full y).str = y := by intro b; cases b <;> rfl
  simp only [Option.bind_eq_bind, Option.bind_some, EditDist.interior, EditDist.rd, Nat.sub_self, Nat.add_sub_cancel,
    List.getElem?_cons_zero, List.getElem?_cons_succ, h1, h2, h3]
  unfold cellV EditDist.relaxIns EditDist.relaxDel
  rw [hy]
  simp only [EditDist.wordDelCost, EditDist.wordInsCost]
  generalize pairC k x _ = pc
  by_cases hu : up + k.del * x.length < d + pc
  · simp only [hu, if_true]
    by_cases hl : left + k.ins * y.length < up + k.del * x.length
    · simp [hl, normOp]
    · simp only [hl, if_false]
      by_cases hd : k.del * x.length = 0
      · simp [hd, normOp]
      · simp [hd, normOp]
  · simp only [hu, if_false]
    by_cases hl : left + k.ins * y.length < d + pc
    · simp [hl, normOp]
    · simp only [hl, if_false]
      split <;> rfl

theorem incrLoop_ok {k : Costs} {x : Str} {lc : Bool} {Y : Nat → PWord} {u : Nat → Score} {L : Nat} :
    ∀ (ys : List Str) (j : Nat) (new : List Score) (ops : List Op), L = j + 1 + ys.length →
      (∀ t, t < ys.length → some (Y (j + t)) = (EditDist.mark lc ys)[t]?) →
      new = (List.range (j + 1)).map (fun i => (row k Y x u i).1) ++ List.replicate ys.length 0 →
      incrLoop k x lc ((List.range L).map u) ys (j + 1) new ops =
        some ((List.range L).map (fun i => (row k Y x u i).1),
          ops ++ (List.range ys.length).map fun t => (row k Y x u (j + 1 + t)).2) := by
  intro ys
  induction ys with
  | nil =>
    intro j new ops hL _ hn
    simp only [incrLoop, hn, List.length_nil, List.replicate_zero, List.append_nil, List.range_zero, List.map_nil]
    rw [hL]; rfl
  | cons y ys ih =>
    intro j new ops hL hY hn
    simp only [List.length_cons] at hL
    have hnew : new[j]? = some (row k Y x u j).1 := by
      rw [hn, List.getElem?_append_left (by simp), getElem?_range_map, if_pos (Nat.lt_succ_self _)]
    have hy0 : Y j = if (ys.isEmpty && !lc) then .part y else .full y := by
      have h0 := hY 0 (by simp)
      rw [EditDist.mark_get _ _ _ (by simp)] at h0
      simp only [Nat.add_zero, Option.some.injEq, List.length_cons, List.getElem_cons_zero] at h0
      rw [h0]
      cases ys <;> cases lc <;> simp
    have hc : incrCell k x y (ys.isEmpty && !lc) lc ((List.range L).map u) new (j + 1) = some (row k Y x u (j + 1)) := by
      rw [incrCell_ok (d := u j) (up := u (j + 1)) (left := (row k Y x u j).1), ← hy0]
      · rfl
      · rw [getElem?_range_map, if_pos (by omega)]
      · rw [getElem?_range_map, if_pos (by omega)]
      · exact hnew
    unfold incrLoop
    rw [hc]
    simp only
    rw [ih (j + 1) _ _ (by omega)]
    · simp only [List.length_cons, List.append_assoc, Option.some.injEq, Prod.mk.injEq, true_and]
      rw [List.range_succ_eq_map, List.map_cons, List.map_map]
      simp only [List.singleton_append, Nat.add_zero]
      congr 2
      apply List.map_congr_left
      intro t _
      simp only [Function.comp]
      congr 2
      omega
    · intro t ht
      have h1 := hY (t + 1) (by simp; omega)
      rw [EditDist.mark_get _ _ _ (by simp; omega)] at h1
      rw [EditDist.mark_get _ _ _ ht, show j + 1 + t = j + (t + 1) by omega, h1]
      simp
    · rw [hn, range_map_succ _ (j + 1), List.set_append_right _ _ (by simp)]
      simp [List.replicate_succ]

theorem incrRow_ok {k : Costs} {x : Str} {d : List Str} {Y : Nat → PWord} {u : Nat → Score} {m : Nat}
    (hY : ∀ t, t < d.length → some (Y (m + t)) = (prefWords d)[t]?) :
    incrRow k x d ((List.range (m + d.length + 1)).map u) ((List.range (m + 1)).map fun i => (row k Y x u i).1) =
      some ((List.range (m + d.length + 1)).map (fun i => (row k Y x u i).1),
        (List.range d.length).map fun t => (row k Y x u (m + 1 + t)).2) := by
  unfold incrRow
  rw [if_pos (by simp <;> omega)]
  have h1 : ((List.range (m + d.length + 1)).map u).length - d.length = m + 1 := by simp; omega
  have h2 : ((List.range (m + d.length + 1)).map u).length - ((List.range (m + 1)).map fun i => (row k Y x u i).1).length =
      (EditDist.splitLast d).2.length := by rw [EditDist.splitLast_length]; simp <;> omega
  rw [h1, h2, incrLoop_ok (EditDist.splitLast d).2 m _ [] (by rw [EditDist.splitLast_length]; omega) _ rfl]
  · rw [List.nil_append, EditDist.splitLast_length]
  · intro t ht
    rw [EditDist.splitLast_mark]
    exact hY t (by rw [← EditDist.splitLast_length]; exact ht)

theorem extendWords_ok {k : Costs} {d : List Str} {Y : Nat → PWord} {m : Nat}
    (hY : ∀ t, t < d.length → some (Y (m + t)) = (prefWords d)[t]?) : ∀ (ws : List Str) (u : Nat → Score),
      extendWords k d ws (esis k Y (m + 1) ws u) ((List.range (m + d.length + 1)).map u) =
        some (esis k Y (m + d.length + 1) ws u) := by
  intro ws
  induction ws with
  | nil => intro u; rfl
  | cons x xs ih =>
    intro u
    simp only [extendWords, esis, List.headD_cons, List.tail_cons, extendEsi, incrRow_ok hY, Option.map_some, ih,
      Option.some.injEq, List.cons.injEq, and_true, Esi.mk.injEq, true_and]
    have h1 : m + d.length + 1 = (m + 1) + d.length := by omega
    rw [h1, List.range_add (n := m + 1) (m := d.length), List.map_append, List.map_map]
    rfl

theorem wordEditDist_nil (k : Costs) : EditDist.wordEditDist k [] [] = some 0 := by
  rw [EditDist.wordEditDist_ok]; simp [EditDist.Grid.D]

theorem wordEditDist_one (k : Costs) (w : Str) : EditDist.wordEditDist k [w] [] = some (k.del * w.length) := by
  rw [EditDist.wordEditDist_ok]
  simp [EditDist.Grid.D, EditDist.gW, EditDist.wordDelCost, Rat.zero_add]

theorem initWords_ok {k : Costs} {Y : Nat → PWord} : ∀ (ws : List Str) (u : Nat → Score),
    initWords k ws [u 0] = some (esis k Y 1 ws u) := by
  intro ws
  induction ws with
  | nil => intro u; rfl
  | cons x xs ih =>
    intro u
    have h := ih fun j => (row k Y x u j).1
    simp only [row] at h
    simp only [initWords, constructEsi, List.head?_cons, wordEditDist_one, h, Option.map_some, esis]
    rfl

theorem firstRow_ok {k : Costs} {raw : Nat → Str} : ∀ (d : List Str) (m : Nat), (∀ t, t < d.length → some (raw (m + t)) = d[t]?) →
    firstRow k d ((List.range (m + 1)).map (row0 k raw)) = (List.range (m + d.length + 1)).map (row0 k raw) := by
  intro d
  induction d with
  | nil => intro m _; rfl
  | cons y ys ih =>
    intro m h
    have h0 : raw m = y := by simpa using h 0 (by simp)
    have hl : ((List.range (m + 1)).map (row0 k raw)).getLast? = some (row0 k raw m) := by
      rw [range_map_succ, List.getLast?_concat]
    unfold firstRow
    rw [hl]
    have : (List.range (m + 1)).map (row0 k raw) ++ [row0 k raw m + EditDist.wordInsCost k y] =
        (List.range (m + 1 + 1)).map (row0 k raw) := by
      rw [range_map_succ _ (m + 1)]
      simp [row0, h0, EditDist.wordInsCost]
    simp only [this]
    rw [ih (m + 1) fun t ht => by
      have := h (t + 1) (by simp; omega)
      rw [show m + 1 + t = m + (t + 1) by omega, this]; simp]
    congr 2
    simp; omega

theorem esis_last {k : Costs} {Y : Nat → PWord} {L : Nat} : ∀ (ws : List Str) (u : Nat → Score),
    (match (esis k Y L ws u).getLast? with | none => (List.range L).map u | some e => e.scr) =
      (List.range L).map (rowWords k Y ws u) := by
  intro ws
  induction ws with
  | nil => intro u; rfl
  | cons x xs ih =>
    intro u
    have h := ih fun j => (row k Y x u j).1
    simp only [esis, rowWords]
    cases xs with
    | nil => rfl
    | cons x' xs =>
      refine Eq.trans ?_ h
      obtain ⟨e, he⟩ : ∃ e, (esis k Y L (x' :: xs) fun j => (row k Y x u j).1).getLast? = some e := by
        simp only [esis]; exact ⟨_, List.getLast?_cons⟩
      rw [List.getLast?_cons, he]
      rfl

end Thot.WgProc
