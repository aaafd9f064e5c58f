import Verif.WgProc.HistProps

/-!
# C140: the scores of the suggestions
-/

namespace Thot.WgProc

open Thot.WordGraph (WG Arc small Live Path Allowed Topo WF FinalOk)
open Thot.EditDist (Costs Op PWord pairC prefWords WScript)

/-! ## Specification -/

/-- The full claim: the score of a suggestion is that of a path of the graph with the suggested words, weighted with the cost
of correcting its beginning into the text of the user. (The initial score is zero and the text does not end with a blank, so
that neither of them can be the reason of a difference.) -/
def C140_full : Prop :=
  ∀ (g : WG) (P : Par), Topo g → WF g → FinalOk g → Reached g → WordsOk g → g.init = 0 → P.k.del ≠ 0 →
    ∀ (p : Str) (v : List Str), p.getLast? ≠ some ' ' → prefVecOf p = some v → v ≠ [] →
    ∀ (n : Nat) (r : List (Score × List Str)) (st : PS), correct g P p n [] none = some (r, st) → ∀ e ∈ r,
      ∃ path u s b t c, Path (Live g) 0 path t ∧ words path = u ++ s ∧ Begins p b ∧ e.2 = stripLast (b ++ s) ∧
        WScript P.k u (prefWords v) c ∧ e.1 = P.ecmW * (-c) + P.wgW * WordGraph.score WordGraph.own path

/-- The score `x` is that of a correction of the words of `p1`, a path to the state `t`, where the score of the graph is that
of a path `p2` to the same state, with the same last arc, and `ρ` is the score of the best way to go on. -/
def StateScore (g : WG) (P : Par) (v : List Str) (rej : List (Str × Str)) (rest : List Score) (u : List Str) (x : Score) : Prop :=
  ∃ t p1 p2 c ρ, Path (Live g) 0 p1 t ∧ words p1 = u ∧ WScript P.k u (prefWords v) c ∧ Path (Live g) 0 p2 t ∧
    p1.getLast? = p2.getLast? ∧ future g rest rej t = some ρ ∧
    x = P.ecmW * (-c) + P.wgW * (g.init + WordGraph.score WordGraph.own p2) + P.wgW * ρ

/-- The same for a position inside of an arc `a`, after the word `w`; the scores of the graph are those of the state that the
arc leaves. -/
def ArcScore (g : WG) (P : Par) (v : List Str) (rest : List Score) (u : List Str) (x : Score) : Prop :=
  ∃ i a w p1 p2 c, Live g i a ∧ w + 1 < a.words.length ∧ Path (Live g) 0 p1 a.pred ∧ words p1 ++ a.words.take (w + 1) = u ∧
    WScript P.k u (prefWords v) c ∧ Path (Live g) 0 p2 a.pred ∧
    x = P.wgW * (g.init + WordGraph.score WordGraph.own p2) + P.ecmW * (-c) + P.wgW * rest.getD a.pred 0

/-! ## The trace back follows the table -/

/-- The first `j` words. -/
def upto (Y : Nat → PWord) (j : Nat) : List PWord := (List.range j).map Y

theorem upto_succ (Y : Nat → PWord) (j : Nat) : upto Y (j + 1) = upto Y j ++ [Y j] := range_map_succ Y j

theorem script_pair {k : Costs} {X : List Str} {Y : Nat → PWord} {j : Nat} {c : Score} (x : Str)
    (h : WScript k X (upto Y j) c) : WScript k (X ++ [x]) (upto Y (j + 1)) (c + pairC k x (Y j)) := by
  have := h.append (.pair x (Y j) .nil)
  rw [upto_succ, ← Rat.add_zero (pairC k x (Y j))]; exact this

theorem script_ins {k : Costs} {X : List Str} {Y : Nat → PWord} {j : Nat} {c : Score}
    (h : WScript k X (upto Y j) c) : WScript k X (upto Y (j + 1)) (c + k.ins * (Y j).str.length) := by
  have := h.append (.ins (Y j) .nil)
  rw [List.append_nil] at this
  rw [upto_succ, ← Rat.add_zero (k.ins * ((Y j).str.length : Score))]; exact this

theorem script_del {k : Costs} {X : List Str} {Y : Nat → PWord} {j : Nat} {c : Score} (x : Str)
    (h : WScript k X (upto Y j) c) : WScript k (X ++ [x]) (upto Y j) (c + k.del * x.length) := by
  have := h.append (.del x .nil)
  rw [List.append_nil] at this
  rw [← Rat.add_zero (k.del * (x.length : Score))]; exact this

theorem row_op_zero (k : Costs) (Y : Nat → PWord) (x : Str) (u : Nat → Score) : (row k Y x u 0).2 = .none := rfl

theorem cellV_cases {k : Costs} {x : Str} {y : PWord} {d up left : Score} (hx : k.del * x.length ≠ 0) :
    cellV k x y d up left = (left + k.ins * y.str.length, .ins) ∨ cellV k x y d up left = (up + k.del * x.length, .del) ∨
      cellV k x y d up left = (d + pairC k x y, .hit) := by
  unfold cellV
  rw [if_neg hx]
  by_cases h1 : up + k.del * x.length < d + pairC k x y
  · simp only [h1, if_true]
    by_cases h2 : left + k.ins * y.str.length < up + k.del * x.length
    · exact Or.inl (if_pos h2)
    · exact Or.inr (Or.inl (if_neg h2))
  · simp only [h1, if_false]
    by_cases h2 : left + k.ins * y.str.length < d + pairC k x y
    · exact Or.inl (if_pos h2)
    · exact Or.inr (Or.inr (if_neg h2))

/-- What an operation says. -/
theorem row_step {k : Costs} {Y : Nat → PWord} {x : Str} {u : Nat → Score} (hx : k.del * x.length ≠ 0) {X : List Str} (j : Nat) :
    ((row k Y x u j).2 = .hit → 0 < j ∧ (WScript k X (upto Y (j - 1)) (u (j - 1)) →
      WScript k (X ++ [x]) (upto Y j) (row k Y x u j).1)) ∧
    ((row k Y x u j).2 = .del → WScript k X (upto Y j) (u j) → WScript k (X ++ [x]) (upto Y j) (row k Y x u j).1) ∧
    ((row k Y x u j).2 = .none → j = 0 ∧ (WScript k X (upto Y 0) (u 0) → WScript k (X ++ [x]) (upto Y 0) (row k Y x u 0).1)) ∧
    ((row k Y x u j).2 = .ins → 0 < j ∧ (WScript k (X ++ [x]) (upto Y (j - 1)) (row k Y x u (j - 1)).1 →
      WScript k (X ++ [x]) (upto Y j) (row k Y x u j).1)) ∧
    (row k Y x u j).2 ≠ .subst ∧ (row k Y x u j).2 ≠ .prefDel := by
  cases j with
  | zero =>
    refine ⟨fun h => ?_, fun h => ?_, fun _ => ⟨rfl, fun h => script_del x h⟩, fun h => ?_, ?_, ?_⟩ <;>
      simp [row] at *
  | succ j =>
    have hc := cellV_cases (k := k) (y := Y j) (d := u j) (up := u (j + 1)) (left := (row k Y x u j).1) hx
    have he : row k Y x u (j + 1) = cellV k x (Y j) (u j) (u (j + 1)) (row k Y x u j).1 := rfl
    rw [← he] at hc
    rcases hc with hc | hc | hc <;> rw [hc]
    · refine ⟨fun h => ?_, fun h => ?_, fun h => ?_, fun _ => ⟨by omega, fun h => script_ins h⟩, ?_, ?_⟩ <;> simp at *
    · refine ⟨fun h => ?_, fun _ h => script_del x h, fun h => ?_, fun h => ?_, ?_, ?_⟩ <;> simp at *
    · refine ⟨fun _ => ⟨by omega, fun h => script_pair x h⟩, fun h => ?_, fun h => ?_, fun h => ?_, ?_, ?_⟩ <;> simp at *

theorem opAt {k : Costs} {Y : Nat → PWord} {x : Str} {u : Nat → Score} {L j : Nat} (h : j < L) :
    ((List.range L).map fun j => (row k Y x u j).2)[j]? = some (row k Y x u j).2 := by
  rw [getElem?_range_map, if_pos h]

theorem runStart_spec {k : Costs} {Y : Nat → PWord} {x : Str} {u : Nat → Score} (hx : k.del * x.length ≠ 0) {X : List Str} {L : Nat} :
    ∀ (j : Nat) {r : Nat}, j < L → runStart ((List.range L).map fun j => (row k Y x u j).2) j = some r →
      r ≤ j ∧ (row k Y x u r).2 ≠ .ins ∧ (WScript k (X ++ [x]) (upto Y r) (row k Y x u r).1 →
        WScript k (X ++ [x]) (upto Y j) (row k Y x u j).1) := by
  intro j
  induction j with
  | zero =>
    intro r hj h
    unfold runStart at h
    rw [opAt hj] at h
    split at h
    · cases h
    · cases h
      rename_i h'
      exact ⟨Nat.le_refl _, fun h => h' (by rw [h]), id⟩
  | succ j ih =>
    intro r hj h
    unfold runStart at h
    rw [opAt hj] at h
    split at h
    · rename_i h'
      obtain ⟨h1, h2, h3⟩ := ih (by omega) h
      exact ⟨by omega, h2, fun hs => ((row_step hx (j + 1)).2.2.2.1 (Option.some.inj h')).2 (h3 hs)⟩
    · cases h
      rename_i h'
      exact ⟨Nat.le_refl _, fun h => h' (by rw [h]), id⟩

theorem lastIns_spec {k : Costs} {Y : Nat → PWord} {x : Str} {u : Nat → Score} (hx : k.del * x.length ≠ 0) {L : Nat} {j j' : Nat}
    (h : lastIns ((List.range L).map fun j => (row k Y x u j).2) j = some j') {X : List Str} :
    j' ≤ j ∧ (WScript k X (upto Y j') (u j') → WScript k (X ++ [x]) (upto Y j) (row k Y x u j).1) := by
  unfold lastIns at h
  by_cases hj : j < L
  · rw [opAt hj] at h
    have key := row_step (Y := Y) (u := u) hx (X := X) j
    cases ho : (row k Y x u j).2 with
    | hit =>
      simp only [ho] at h
      rw [if_neg (by have := (key.1 ho).1; omega)] at h
      cases h
      exact ⟨by omega, (key.1 ho).2⟩
    | subst => exact absurd ho key.2.2.2.2.1
    | del => simp only [ho] at h; cases h; exact ⟨Nat.le_refl _, key.2.1 ho⟩
    | none =>
      simp only [ho] at h; cases h
      obtain ⟨rfl, h2⟩ := key.2.2.1 ho
      exact ⟨Nat.le_refl _, h2⟩
    | prefDel => exact absurd ho key.2.2.2.2.2
    | ins =>
      simp only [ho] at h
      cases hr : runStart ((List.range L).map fun j => (row k Y x u j).2) j with
      | none => simp [hr] at h
      | some r =>
        simp only [hr] at h
        obtain ⟨h1, h2, h3⟩ := runStart_spec hx (X := X) j hj hr
        rw [opAt (by omega)] at h
        have key := row_step (Y := Y) (u := u) hx (X := X) r
        cases hor : (row k Y x u r).2 with
        | hit =>
          have := (key.1 hor).1
          simp [hor, show r ≠ 0 by omega] at h
          subst h
          exact ⟨by omega, fun hs => h3 ((key.1 hor).2 hs)⟩
        | subst => exact absurd hor key.2.2.2.2.1
        | del => simp [hor] at h; subst h; exact ⟨h1, fun hs => h3 (key.2.1 hor hs)⟩
        | none =>
          simp [hor] at h; subst h
          obtain ⟨rfl, h4⟩ := key.2.2.1 hor
          exact ⟨h1, fun hs => h3 (h4 hs)⟩
        | prefDel => exact absurd hor key.2.2.2.2.2
        | ins => exact absurd hor h2
  · rw [getElem?_range_map, if_neg hj] at h; cases h

theorem rowWords_snoc (k : Costs) (Y : Nat → PWord) : ∀ (ws : List Str) (x : Str) (u : Nat → Score),
    rowWords k Y (ws ++ [x]) u = fun j => (row k Y x (rowWords k Y ws u) j).1 := by
  intro ws
  induction ws with
  | nil => intro x u; rfl
  | cons y ws ih => intro x u; exact ih x _

theorem esis_get {k : Costs} {Y : Nat → PWord} {L : Nat} : ∀ (ws : List Str) (u : Nat → Score) (n : Nat) (e : Esi),
    (esis k Y L ws u)[n]? = some e → ∃ x, ws[n]? = some x ∧
      e = ⟨(List.range L).map fun j => (row k Y x (rowWords k Y (ws.take n) u) j).1,
        (List.range L).map fun j => (row k Y x (rowWords k Y (ws.take n) u) j).2⟩ := by
  intro ws
  induction ws with
  | nil => intro u n e h; simp [esis] at h
  | cons y ws ih =>
    intro u n e h
    cases n with
    | zero => simp only [esis, List.getElem?_cons_zero, Option.some.injEq] at h; exact ⟨y, rfl, h.symm⟩
    | succ n => simp only [esis, List.getElem?_cons_succ] at h; exact ih _ n e h

theorem backWords_spec {k : Costs} {Y : Nat → PWord} {L : Nat} {ws : List Str} (hx : ∀ x ∈ ws, k.del * x.length ≠ 0)
    {u : Nat → Score} : ∀ (n : Nat) {j j' : Nat} {X : List Str}, backWords (esis k Y L ws u) n j = some j' →
      j' ≤ j ∧ (WScript k X (upto Y j') (u j') → WScript k (X ++ ws.take n) (upto Y j) (rowWords k Y (ws.take n) u j)) := by
  intro n
  induction n with
  | zero =>
    intro j j' X h
    simp only [backWords, Option.some.injEq] at h; subst h
    refine ⟨Nat.le_refl _, fun h => ?_⟩
    rw [List.take_zero, List.append_nil]; exact h
  | succ n ih =>
    intro j j' X h
    unfold backWords at h
    cases he : (esis k Y L ws u)[n]? with
    | none => simp [he] at h
    | some e =>
      simp only [he] at h
      obtain ⟨x, hxn, rfl⟩ := esis_get ws u n e he
      cases hl : lastIns ((List.range L).map fun j => (row k Y x (rowWords k Y (ws.take n) u) j).2) j with
      | none => simp [hl] at h
      | some j1 =>
        simp only [hl] at h
        obtain ⟨h1, h2⟩ := ih (X := X) h
        obtain ⟨h3, h4⟩ := lastIns_spec (X := X ++ ws.take n) (hx x (List.mem_of_getElem? hxn)) hl
        refine ⟨by omega, fun hs => ?_⟩
        have : ws.take (n + 1) = ws.take n ++ [x] := by rw [List.take_add_one, hxn]; rfl
        rw [this, rowWords_snoc, ← List.append_assoc]
        exact h4 (h2 hs)

section

variable {g : WG} {P : Par} {raw : Nat → Str} {Y : Nat → PWord}

/-- The arc recorded in a cell. -/
theorem tab_pred (ht : Topo g) : ∀ (n s j : Nat) {id : Nat}, n ≤ g.arcs.length → (tab g P raw Y n s j).pred = some id →
    ∃ a, Live g id a ∧ a.succ = s ∧
      (tab g P raw Y n s j).scr = rowWords P.k Y a.words (fun i => (tab g P raw Y g.arcs.length a.pred i).scr) j ∧
      (tab g P raw Y n s j).best = P.ecmW * (-(tab g P raw Y n s j).scr) + P.wgW * (wgT g id a.pred + a.score) := by
  intro n
  induction n with
  | zero =>
    intro s j id hn h
    simp only [tab] at h
    split at h <;> cases h
  | succ n ih =>
    intro s j id hn h
    simp only [tab] at h ⊢
    cases hl : liveArc g n with
    | none => simp only [hl] at h ⊢; exact ih s j (by omega) h
    | some a =>
      simp only [hl] at h ⊢
      by_cases hs : s = a.succ
      · have ha := liveArc_iff.1 hl
        simp only [if_pos hs] at h ⊢
        unfold relax at h ⊢
        split at h
        · rename_i hlt
          cases h
          rw [if_pos hlt]
          refine ⟨a, ha, hs.symm, ?_, rfl⟩
          simp only [tab_stable P raw Y ht ha _ (show n ≤ g.arcs.length by omega)]
        · rename_i hlt
          rw [if_neg hlt]
          exact ih s j (by omega) h
      · simp only [if_neg hs] at h ⊢
        exact ih s j (by omega) h

/-- The score of the graph for a state is that of a path to it. -/
theorem wgT_path (hc : Conn g) : ∀ (n s : Nat), fed g n s = true →
    ∃ p, Path (Live g) 0 p s ∧ wgT g n s = g.init + WordGraph.score WordGraph.own p := by
  intro n
  induction n with
  | zero =>
    intro s h
    obtain rfl : s = 0 := by simpa [fed] using h
    exact ⟨[], .nil 0, by simp [wgT, WordGraph.score, Rat.add_zero]⟩
  | succ n ih =>
    intro s h
    simp only [wgT]
    cases hl : liveArc g n with
    | none =>
      simp only [fed, hl, Option.map_none, Bool.or_eq_true] at h
      rcases h with h | h
      · exact ih s h
      · simp at h
    | some a =>
      have ha := liveArc_iff.1 hl
      simp only
      by_cases hs : s = a.succ
      · obtain ⟨p, hp, he⟩ := ih a.pred (hc.fed n a ha)
        rw [if_pos hs, hs]
        refine ⟨p ++ [(n, a)], hp.snoc ha, ?_⟩
        rw [he, WordGraph.score_append]
        simp only [WordGraph.score, WordGraph.own]
        grind
      · rw [if_neg hs]
        simp only [fed, hl, Option.map_some, Bool.or_eq_true, beq_iff_eq, Option.some.injEq] at h
        rcases h with h | h
        · exact ih s h
        · exact absurd h.symm hs

theorem row0_script {k : Costs} (X : Nat) : ∀ j, j ≤ X → (∀ i < X, (raw i).length = (Y i).str.length) →
    WScript k [] (upto Y j) (row0 k raw j) := by
  intro j
  induction j with
  | zero => intro _ _; exact .nil
  | succ j ih =>
    intro hj h
    have := script_ins (ih (by omega) h)
    rw [row0, h j (by omega)]; exact this

/-- The words found by the trace back can be corrected with the cost in the table. -/
theorem uncorr_script (ht : Topo g) (hc : Conn g) {pv : List Str} {rest : List Score} {J : Nat}
    (hx : ∀ i a, Live g i a → ∀ x ∈ a.words, P.k.del * x.length ≠ 0) (hraw : ∀ i < J, (raw i).length = (Y i).str.length) :
    ∀ (fuel j s : Nat) {u : List Str}, j ≤ J → uncorr g (rep g P raw Y pv rest (J + 1)) fuel j s = some u →
      ∃ p, Path (Live g) 0 p s ∧ words p = u ∧ WScript P.k u (upto Y j) (tab g P raw Y g.arcs.length s j).scr ∧
        ((p = [] ∧ s = 0) ∨ ∃ id a q, p = q ++ [(id, a)] ∧ a.succ = s ∧ (tab g P raw Y g.arcs.length s j).pred = some id) := by
  intro fuel
  have base : ∀ j u, j ≤ J → some [] = some u → ∃ p, Path (Live g) 0 p 0 ∧ words p = u ∧
      WScript P.k u (upto Y j) (tab g P raw Y g.arcs.length 0 j).scr ∧
        ((p = [] ∧ (0 : Nat) = 0) ∨ ∃ id a q, p = q ++ [(id, a)] ∧ a.succ = 0 ∧ (tab g P raw Y g.arcs.length 0 j).pred = some id) := by
    intro j u hj h
    cases h
    refine ⟨[], .nil 0, rfl, ?_, Or.inl ⟨rfl, rfl⟩⟩
    rw [tab_src P raw Y hc]
    simp only [tab, if_true]
    exact row0_script J j hj hraw
  induction fuel with
  | zero =>
    intro j s u hj h
    unfold uncorr at h
    split at h
    · rename_i h0; subst h0; exact base j u hj h
    · cases h
  | succ fuel ih =>
    intro j s u hj h
    unfold uncorr at h
    split at h
    · rename_i h0; subst h0; exact base j u hj h
    · cases hid : ((rep g P raw Y pv rest (J + 1)).preds s)[j]? with
      | none => simp [hid] at h
      | some o =>
      cases o with
      | none => simp [hid] at h
      | some id =>
        simp only [hid] at h
        have hp : (tab g P raw Y g.arcs.length s j).pred = some id := by
          simp only [rep] at hid
          split at hid
          · rw [getElem?_range_map, if_pos (by omega)] at hid
            exact Option.some.inj hid
          · simp at hid
        obtain ⟨a, ha, hs, h1, h2⟩ := tab_pred ht _ s j (Nat.le_refl _) hp
        simp only [ha.1] at h
        have he : (rep g P raw Y pv rest (J + 1)).esiA id = esis P.k Y (J + 1) a.words
            fun i => (tab g P raw Y g.arcs.length a.pred i).scr := by
          simp only [rep, arcEsis, liveArc_iff.2 ha]
        rw [he] at h
        cases hb : backWords (esis P.k Y (J + 1) a.words fun i => (tab g P raw Y g.arcs.length a.pred i).scr) a.words.length j with
        | none => simp [hb] at h
        | some j' =>
          simp only [hb, Option.map_eq_some_iff] at h
          obtain ⟨u', hu', rfl⟩ := h
          obtain ⟨h3, h4⟩ := backWords_spec (X := u') (hx id a ha) a.words.length hb
          obtain ⟨p, hp1, hp2, hp3, -⟩ := ih j' a.pred (by omega) hu'
          refine ⟨p ++ [(id, a)], hs ▸ hp1.snoc ha, ?_, ?_, Or.inr ⟨id, a, p, rfl, hs, hp⟩⟩
          · rw [words_append, hp2]; simp [words]
          · rw [h1]
            have := h4 hp3
            rw [List.take_length] at this
            exact this

end

/-! ## The lists of candidates -/

theorem nbStates_mem {g : WG} {P : Par} {n : Nat} {rej : List (Str × Str)} {st : PS} :
    ∀ (l : List Nat) {nb r : List (Score × Nat)}, nbStates g P n rej st l nb = some r →
      ∀ y ∈ r, y ∈ nb ∨ ∃ ρ b, stateRest g st.rest rej y.2 = some (some ρ) ∧ (st.best y.2).getLast? = some b ∧ y.1 = b + P.wgW * ρ := by
  intro l
  induction l with
  | nil => intro nb r h y hy; simp only [nbStates, Option.some.injEq] at h; subst h; exact Or.inl hy
  | cons s l ih =>
    intro nb r h y hy
    unfold nbStates at h
    cases hs : stateRest g st.rest rej s with
    | none => simp [hs] at h
    | some o =>
      cases o with
      | none => simp only [hs] at h; exact ih h y hy
      | some ρ =>
        simp only [hs] at h
        cases hb : (st.best s).getLast? with
        | none => simp [hb] at h
        | some b =>
          simp only [hb] at h
          rcases ih h y hy with h | h
          · rcases mem_nbAdd h with rfl | h
            · exact Or.inr ⟨ρ, b, hs, hb, rfl⟩
            · exact Or.inl h
          · exact Or.inr h

theorem subWords_mem {P : Par} {n : Nat} {rej : List (Str × Str)} {st : PS} {id : Nat} {a : Arc} :
    ∀ (l : List Nat) {nb r : List (Score × Nat × Nat)}, subWords P n rej st id a l nb = some r →
      ∀ y ∈ r, y ∈ nb ∨ (y.2.1 = id ∧ y.2.2 + 1 < a.words.length ∧ ∃ e c ρ, (st.esiA id)[y.2.2]? = some e ∧ e.scr.getLast? = some c ∧
        st.rest[a.pred]? = some ρ ∧ y.1 = P.wgW * st.wgS a.pred + P.ecmW * (-c) + P.wgW * ρ) := by
  intro l
  induction l with
  | nil => intro nb r h y hy; simp only [subWords, Option.some.injEq] at h; subst h; exact Or.inl hy
  | cons w l ih =>
    intro nb r h y hy
    unfold subWords at h
    cases hw : a.words[w + 1]? with
    | none => simp [hw] at h
    | some nw =>
      simp only [hw] at h
      split at h
      · exact ih h y hy
      · split at h
        · rename_i c ρ hc hr
          obtain ⟨e, he, hc⟩ := Option.bind_eq_some_iff.1 hc
          rcases ih h y hy with h | h
          · rcases mem_nbAdd h with rfl | h
            · exact Or.inr ⟨rfl, (List.getElem?_eq_some_iff.1 hw).1, e, c, ρ, he, hc, hr, rfl⟩
            · exact Or.inl h
          · exact Or.inr h
        · cases h

theorem nbSubStates_mem {g : WG} {P : Par} {n : Nat} {rej : List (Str × Str)} {st : PS} :
    ∀ (l : List Nat) {nb r : List (Score × Nat × Nat)}, nbSubStates g P n rej st l nb = some r →
      ∀ y ∈ r, y ∈ nb ∨ ∃ a, Live g y.2.1 a ∧ y.2.2 + 1 < a.words.length ∧ ∃ e c ρ, (st.esiA y.2.1)[y.2.2]? = some e ∧
        e.scr.getLast? = some c ∧ st.rest[a.pred]? = some ρ ∧ y.1 = P.wgW * st.wgS a.pred + P.ecmW * (-c) + P.wgW * ρ := by
  intro l
  induction l with
  | nil => intro nb r h y hy; simp only [nbSubStates, Option.some.injEq] at h; subst h; exact Or.inl hy
  | cons i l ih =>
    intro nb r h y hy
    unfold nbSubStates at h
    cases ha : g.arcs[i]? with
    | none => simp [ha] at h
    | some a =>
      cases hb : g.pruned[i]? with
      | none => simp [ha, hb] at h
      | some b =>
        simp only [ha, hb] at h
        cases b with
        | true => simp only [if_true] at h; exact ih h y hy
        | false =>
          cases hs : subWords P n rej st i a (List.range (a.words.length - 1)) nb with
          | none => simp [hs] at h
          | some nb1 =>
            simp [hs] at h
            rcases ih h y hy with h | h
            · rcases subWords_mem _ hs y h with h | ⟨rfl, h⟩
              · exact Or.inl h
              · exact Or.inr ⟨a, ⟨ha, hb⟩, h⟩
            · exact Or.inr h

theorem upto_mean (v : List Str) : upto (meanOf v) v.length = prefWords v := by
  apply List.ext_getElem
  · simp [upto, prefWords_length]
  · intro i h1 h2
    simp [upto, meanOf, List.getD_eq_getElem?_getD, h2]

theorem raw_mean {v : List Str} {l : Str} (hl : l.getLast? ≠ some ' ') : ∀ i < (v ++ [l]).length,
    (rawOf (v ++ [l]) i).length = (meanOf (v ++ [l]) i).str.length := by
  intro i hi
  have h1 : prefWords (v ++ [l]) = v.map .full ++ [.part l] := by
    unfold prefWords
    rw [List.getLast?_concat]
    simp only [if_neg hl, List.dropLast_concat]
  have hi' : i ≤ v.length := by simp at hi; omega
  simp only [rawOf, meanOf, h1, List.getD_eq_getElem?_getD]
  rcases Nat.lt_or_ge i v.length with h | h
  · rw [List.getElem?_append_left h, List.getElem?_append_left (by simpa using h), List.getElem?_map, List.getElem?_eq_getElem h]
    rfl
  · have : i = v.length := by omega
    subst this
    rw [List.getElem?_append_right (by simp), List.getElem?_append_right (by simp)]
    simp [PWord.str]

/-- **C140 (part).** The score of a suggestion has a part for the words of the beginning, with the cost of an edit script
between them and the text of the user, and a part for the graph; but the latter is the score of some path to the same state,
plus the rest score of a state. -/
theorem C140_scores_partial {g : WG} {P : Par} (ht : Topo g) (hw : WF g) (hr : Reached g) (hg : WordsOk g) (hk : P.k.del ≠ 0)
    {ps : List Str} {st : Option PS} (h : Calls g P ps st) {p : Str} (hs : Steps (p :: ps)) {n : Nat} {rej : List (Str × Str)}
    {v : List Str} (hv : prefVecOf p = some v) (hv0 : StrProc.stringToStringVector p ≠ []) (hb : p.getLast? ≠ some ' ')
    {r : List (Score × List Str)} {st' : PS} (hc : correct g P p n rej st = some (r, st')) :
    ∃ rest, WordGraph.calcRestScores g = some rest ∧ ∀ e ∈ r, ∃ u s t, Suggests g p e.2 u s t ∧
      (StateScore g P v rej rest u e.1 ∨ ArcScore g P v rest u e.1) := by
  have hcon := conn_of ht hr
  obtain ⟨rest, p', l', v', hrest, hpe, hv', rfl⟩ := calls_state ht hw hr (.call h hc) hs st' rfl
  cases hpe
  rw [hv] at hv'; cases hv'
  obtain ⟨v0, l, hvl, hq⟩ := prefVecOf_spec hv hv0
  obtain ⟨-, rfl⟩ : p.getLast? ≠ some ' ' ∧ v = v0 ++ [l] := by
    rcases hq with ⟨h, -⟩ | h
    · exact absurd h hb
    · exact h
  have hl : l.getLast? ≠ some ' ' := getLast?_ne_blank (tokens_no_blank (p := p) (by rw [hvl]; simp)).2
  refine ⟨rest, hrest, ?_⟩
  obtain ⟨inv, q, hinv, hq, hcor⟩ := correct_parts hc
  rw [hv] at hq; cases hq
  have hx : ∀ i a, Live g i a → ∀ x ∈ a.words, P.k.del * (x.length : Score) ≠ 0 := by
    intro i a ha x hx h0
    have := (hg a (List.mem_of_getElem? ha.1) x hx).1
    rcases Rat.mul_eq_zero.1 h0 with h0 | h0
    · exact hk h0
    · exact this (List.length_eq_zero_iff.1 (by exact_mod_cast h0))
  have hun : ∀ j s u, j ≤ (v0 ++ [l]).length → uncorr g (stateFor g P rest (v0 ++ [l])) g.arcs.length j s = some u → _ :=
    fun j s u hj hu => uncorr_script (pv := v0 ++ [l]) (rest := rest) ht hcon hx (raw_mean hl) g.arcs.length j s hj hu
  unfold corrections at hcor
  simp only [Option.bind_eq_bind, Option.bind_eq_some_iff] at hcor
  obtain ⟨hsl, h1, hss, h2, nb, h3, h4⟩ := hcor
  intro e he
  rcases mem_nbCorr h4 e he with he | ⟨x, hx', hxe, hf⟩
  · rcases mem_nbCorr h3 e he with he | ⟨x, hx', hxe, hf⟩
    · simp at he
    · unfold corrState at hf
      split at hf
      · cases hf
      · rename_i u hu
        split at hf
        · rename_i c b hc' hb'
          simp only [Option.some.injEq] at hf
          obtain ⟨p1, hp1, hp1w, hscr, hend⟩ := hun _ _ _ (Nat.le_refl _) hu
          rw [upto_mean] at hscr
          obtain h' | ⟨ρ, bb, hρ, hbb, hsc⟩ := nbStates_mem _ h1 x hx'
          · simp at h'
          · cases hex : excludedOf g rej x.2 with
            | none => simp [hex] at hb'
            | some ex =>
              simp only [hex, Option.bind_some] at hb'
              obtain ⟨p2, t, hp2, hb2, -⟩ := bestPath_path hb'
              refine ⟨u, words p2, t, ⟨p1 ++ p2, c, ?_, ?_, ?_, ?_⟩, Or.inl ?_⟩
              · exact hp1.append (hp2.mono fun _ _ h => h.1)
              · rw [words_append, hp1w]
              · refine combine_begins hk hv hv0 ?_ hc'
                rw [← hp1w]; exact words_ok_path hg (fun _ _ h => h.1) hp1
              · rw [← hf, hb2, pathWords_eq]
              · have hbest : bb = (tab g P (rawOf (v0 ++ [l])) (meanOf (v0 ++ [l])) g.arcs.length x.2 (v0 ++ [l]).length).best := by
                  simp only [stateFor, rep] at hbb
                  split at hbb
                  · rw [range_map_succ, List.getLast?_concat] at hbb
                    exact (Option.some.inj hbb).symm
                  · simp at hbb
                have hfut := (stateRest_spec hw hρ).symm
                rcases hend with ⟨rfl, h0⟩ | ⟨id, a, q, rfl, hsa, hpred⟩
                · refine ⟨x.2, [], [], _, ρ, hp1, hp1w, hscr, hp1, rfl, hfut, ?_⟩
                  rw [← hxe, hsc, hbest, h0, tab_src _ _ _ hcon]
                  simp only [tab, if_true, WordGraph.score]
                  grind
                · obtain ⟨a', ha', -, -, hb4⟩ := tab_pred ht _ _ _ (Nat.le_refl _) hpred
                  have ha := hp1.mem (id, a) (by simp)
                  obtain rfl : a' = a := Option.some.inj (ha'.1.symm.trans ha.1)
                  obtain ⟨p3, hp3, hp3s⟩ := wgT_path hcon id a'.pred (hcon.fed id a' ha')
                  refine ⟨x.2, _, p3 ++ [(id, a')], _, ρ, hp1, hp1w, hscr, hsa ▸ hp3.snoc ha', by simp, hfut, ?_⟩
                  rw [← hxe, hsc, hbest, hb4, hp3s, WordGraph.score_append]
                  simp only [WordGraph.score, WordGraph.own]
                  grind
        · cases hf
  · obtain h' | ⟨a, ha, hlt, es, c, ρ, hes, hcl, hρ, hsc⟩ := nbSubStates_mem _ h2 x hx'
    · simp at h'
    · unfold corrSub uncorrSub at hf
      simp only [ha.1] at hf
      cases hbw : backWords ((stateFor g P rest (v0 ++ [l])).esiA x.2.1) (x.2.2 + 1) (v0 ++ [l]).length with
      | none => simp only [hbw] at hf; cases hf
      | some j =>
        simp only [hbw] at hf
        rw [if_pos (by omega)] at hf
        cases hu : uncorr g (stateFor g P rest (v0 ++ [l])) g.arcs.length j a.pred with
        | none => simp [hu] at hf
        | some u =>
          simp only [hu, Option.map_some] at hf
          split at hf
          · rename_i cc b hc' hb'
            simp only [Option.some.injEq] at hf
            have hesi : (stateFor g P rest (v0 ++ [l])).esiA x.2.1 = esis P.k (meanOf (v0 ++ [l])) ((v0 ++ [l]).length + 1) a.words
                fun i => (tab g P (rawOf (v0 ++ [l])) (meanOf (v0 ++ [l])) g.arcs.length a.pred i).scr := by
              simp only [stateFor, rep, arcEsis, liveArc_iff.2 ha]
            rw [hesi] at hbw hes
            obtain ⟨hj, hback⟩ := backWords_spec (X := u) (hx _ a ha) _ hbw
            obtain ⟨p1, hp1, hp1w, hscr, -⟩ := hun _ _ _ hj hu
            have hscr2 := hback hscr
            rw [upto_mean] at hscr2
            obtain ⟨w, hw1, hw2⟩ := esis_get _ _ _ _ hes
            have hcost : c = rowWords P.k (meanOf (v0 ++ [l])) (a.words.take (x.2.2 + 1))
                (fun i => (tab g P (rawOf (v0 ++ [l])) (meanOf (v0 ++ [l])) g.arcs.length a.pred i).scr) (v0 ++ [l]).length := by
              rw [hw2] at hcl
              simp only at hcl
              rw [range_map_succ, List.getLast?_concat] at hcl
              have : a.words.take (x.2.2 + 1) = a.words.take x.2.2 ++ [w] := by rw [List.take_add_one, hw1]; rfl
              rw [this, rowWords_snoc]
              exact (Option.some.inj hcl).symm
            rw [← hcost] at hscr2
            obtain ⟨p2, t, hp2, hb2, -⟩ := bestPath_path hb'
            obtain ⟨p3, hp3, hp3s⟩ := wgT_path hcon g.arcs.length a.pred
              (fed_mono (Nat.le_of_lt (List.getElem?_eq_some_iff.1 ha.1).1) (hcon.fed _ a ha))
            refine ⟨u ++ a.words.take (x.2.2 + 1), a.words.drop (x.2.2 + 1) ++ words p2, t,
              ⟨p1 ++ (x.2.1, a) :: p2, cc, ?_, ?_, ?_, ?_⟩, Or.inr ?_⟩
            · exact hp1.append (.cons ha (hp2.mono fun _ _ h => h.1))
            · rw [words_append, hp1w]
              have hcons : words ((x.2.1, a) :: p2) = a.words ++ words p2 := rfl
              rw [hcons]
              simp only [List.append_assoc]
              rw [← List.append_assoc (a.words.take _), List.take_append_drop]
            · refine combine_begins hk hv hv0 (fun w hw' => ?_) hc'
              rcases List.mem_append.1 hw' with hw' | hw'
              · rw [← hp1w] at hw'; exact words_ok_path hg (fun _ _ h => h.1) hp1 w hw'
              · exact hg a (List.mem_of_getElem? ha.1) w (List.mem_of_mem_take hw')
            · rw [← hf, hb2, pathWords_eq, List.append_assoc]
            · refine ⟨x.2.1, a, x.2.2, p1, p3, c, ha, hlt, hp1, by rw [hp1w], hscr2, hp3, ?_⟩
              have hρ' : rest.getD a.pred 0 = ρ := by
                rw [List.getD_eq_getElem?_getD]
                have : rest[a.pred]? = some ρ := hρ
                rw [this]; rfl
              have hwg : (stateFor g P rest (v0 ++ [l])).wgS a.pred = wgT g g.arcs.length a.pred := rfl
              rw [← hxe, hsc, hρ', hwg, hp3s]
          · cases hf

/-! ## The claim is false of the program -/

def exH : WG := graphOf [(0, 1, ["a".toList], -1), (0, 1, ["b".toList], -1/2), (1, 2, ["c".toList], -1)] [2]

theorem exH_arcs : exH.arcs = [⟨0, 1, -1, ["a".toList]⟩, ⟨0, 1, -1/2, ["b".toList]⟩, ⟨1, 2, -1, ["c".toList]⟩] := by decide +kernel

theorem exH_topo : Topo exH := WordGraph.topo_of (by decide +kernel)
theorem exH_wf : WF exH := by apply WordGraph.wf_of <;> decide +kernel
theorem exH_final : FinalOk exH := by unfold FinalOk; decide +kernel
theorem exH_words : WordsOk exH := by unfold WordsOk; decide +kernel

theorem exH_reached : Reached exH := by
  have l0 : Live exH 0 ⟨0, 1, -1, ["a".toList]⟩ := ⟨by decide +kernel, by decide +kernel⟩
  refine ⟨⟨0, _, l0⟩, ?_⟩
  intro i a h
  have hm : a ∈ exH.arcs := List.mem_of_getElem? h.1
  rw [exH_arcs] at hm
  simp only [List.mem_cons, List.not_mem_nil, or_false] at hm
  rcases hm with rfl | rfl | rfl
  · exact ⟨_, .nil 0⟩
  · exact ⟨_, .nil 0⟩
  · exact ⟨_, .cons (a := ⟨0, 1, -1, ["a".toList]⟩) l0 (.nil 1)⟩

theorem exH_step {s t : Nat} {p : List (Nat × Arc)} (h : Path (Live exH) s p t) :
    p = [] ∨ ∃ i a q, p = (i, a) :: q ∧ Path (Live exH) a.succ q t ∧
      ((s = 0 ∧ (a = ⟨0, 1, -1, ["a".toList]⟩ ∨ a = ⟨0, 1, -1/2, ["b".toList]⟩)) ∨ (s = 1 ∧ a = ⟨1, 2, -1, ["c".toList]⟩)) := by
  rcases h.inv with ⟨h, -⟩ | ⟨i, a, q, rfl, rfl, ha, hq⟩
  · exact Or.inl h
  · refine Or.inr ⟨i, a, q, rfl, hq, ?_⟩
    have hm : a ∈ exH.arcs := List.mem_of_getElem? ha.1
    rw [exH_arcs] at hm
    simp only [List.mem_cons, List.not_mem_nil, or_false] at hm
    rcases hm with rfl | rfl | rfl
    · exact Or.inl ⟨rfl, Or.inl rfl⟩
    · exact Or.inl ⟨rfl, Or.inr rfl⟩
    · exact Or.inr ⟨rfl, rfl⟩

/-- The words of the paths of the graph and their scores. -/
theorem exH_paths {t : Nat} {p : List (Nat × Arc)} (h : Path (Live exH) 0 p t) :
    (words p, WordGraph.score WordGraph.own p) ∈ ([([], 0), (["a".toList], -1), (["b".toList], -1/2), (["a".toList, "c".toList], -2),
      (["b".toList, "c".toList], -3/2)] : List (List Str × Score)) := by
  rcases exH_step h with rfl | ⟨i, a, q, rfl, hq, ⟨-, ha⟩ | ⟨h0, -⟩⟩
  · decide +kernel
  · have h1 : a.succ = 1 := by rcases ha with rfl | rfl <;> rfl
    rw [h1] at hq
    rcases exH_step hq with rfl | ⟨i2, a2, q2, rfl, hq2, ⟨h0, -⟩ | ⟨-, rfl⟩⟩
    · rcases ha with rfl | rfl
      · simp only [words, WordGraph.score, WordGraph.own, List.flatMap_cons, List.flatMap_nil]; decide +kernel
      · simp only [words, WordGraph.score, WordGraph.own, List.flatMap_cons, List.flatMap_nil]; decide +kernel
    · cases h0
    · rcases exH_step hq2 with rfl | ⟨i3, a3, q3, -, -, ⟨h0, -⟩ | ⟨h0, -⟩⟩
      · rcases ha with rfl | rfl
        · simp only [words, WordGraph.score, WordGraph.own, List.flatMap_cons, List.flatMap_nil]; decide +kernel
        · simp only [words, WordGraph.score, WordGraph.own, List.flatMap_cons, List.flatMap_nil]; decide +kernel
      · cases h0
      · cases h0
  · cases h0

/-- The score of the graph for a state is that of the last arc that enters it: the arc `b` has a better score than `a`, and the
suggestion `a c` gets the score of `b c` without the cost of a correction. -/
theorem C140_counterexample : ¬ C140_full := by
  intro h
  have h0 : (correct exH exP "a c".toList 1 [] none).map Prod.fst = some [(-3/2, ["a".toList, "c".toList])] := by decide +kernel
  obtain ⟨⟨r, st⟩, h1, h2⟩ := Option.map_eq_some_iff.1 h0
  simp only at h2; subst h2
  obtain ⟨path, u, s, b, t, c, hp, hpw, hb, hc, hs, hsc⟩ := h exH exP exH_topo exH_wf exH_final exH_reached exH_words
    (by decide +kernel) (by decide +kernel) "a c".toList ["a".toList, "c".toList] (by decide +kernel) (by decide +kernel) (by decide) 1 _ st h1
    _ (List.mem_singleton.2 rfl)
  have hs0 : s = [] := by
    obtain ⟨v, l, w, hv, rfl, -⟩ := hb.2 (by decide +kernel)
    have hv2 : (v ++ [l]).length = 2 := by rw [← hv]; decide +kernel
    have := congrArg List.length hc
    have hlen : ∀ l : List Str, l ≠ [] → (stripLast l).length = l.length := by
      intro l hl
      unfold stripLast
      cases hg : l.getLast? with
      | none => rfl
      | some x =>
        have := List.length_pos_iff.2 hl
        simp only [List.length_append, List.length_dropLast, List.length_cons, List.length_nil]; omega
    rw [hlen _ (by simp)] at this
    simp at this hv2
    apply List.length_eq_zero_iff.1; omega
  subst hs0
  rw [List.append_nil] at hpw
  have hmem := exH_paths hp
  rw [hpw] at hmem
  have hmin : ∀ (x : List Str) (d : Score), (∀ a ∈ x, ¬ " pref".toList <:+ a) →
      (EditDist.wordPrefixOpsNoPrefDel exP.k x ["a".toList, "c".toList]).map Prod.fst = some d →
      u = x → d ≤ c := by
    intro x d hx hd hux
    obtain ⟨d', h3, -, h4⟩ := EditDist.C52_noPrefDel_partial exP.k x ["a".toList, "c".toList] hx
    rw [hd] at h3; cases h3
    exact h4 c (hux ▸ hs)
  have e1 : exP.ecmW = 1 := rfl
  have e2 : exP.wgW = 1 := rfl
  rw [e1, e2] at hsc
  simp only [List.mem_cons, Prod.mk.injEq, List.not_mem_nil, or_false] at hmem
  rcases hmem with ⟨hu, hsum⟩ | ⟨hu, hsum⟩ | ⟨hu, hsum⟩ | ⟨hu, hsum⟩ | ⟨hu, hsum⟩
  · have := hmin _ 2 (by decide +kernel) (by decide +kernel) hu; grind
  · have := hmin _ 1 (by decide +kernel) (by decide +kernel) hu; grind
  · have := hmin _ 2 (by decide +kernel) (by decide +kernel) hu; grind
  · have := hmin _ 0 (by decide +kernel) (by decide +kernel) hu; grind
  · have := hmin _ 1 (by decide +kernel) (by decide +kernel) hu; grind

/-- The hypotheses of C137, C140 and C141 hold for a first call that gives three suggestions. -/
example : ∃ r st, correct exH exP "a c".toList 3 [] none = some (r, st) ∧ r.length = 3 ∧
    ∀ e ∈ r, ∃ b, Begins "a c".toList b ∧ b <+: e.2 := by
  have h0 : (correct exH exP "a c".toList 3 [] none).map (fun x => x.1.length) = some 3 := by decide +kernel
  obtain ⟨⟨r, st⟩, h1, h2⟩ := Option.map_eq_some_iff.1 h0
  have hne : StrProc.stringToStringVector "a c".toList ≠ [] := by decide +kernel
  refine ⟨r, st, h1, h2, fun e he => ?_⟩
  have := C140_scores_partial exH_topo exH_wf exH_reached exH_words (by decide +kernel) .fresh (p := "a c".toList) trivial
    (v := ["a".toList, "c".toList]) (by decide +kernel) hne (by decide +kernel) h1
  have := C141_rejected_words exH_topo exH_wf exH_final exH_words (by decide +kernel) .fresh hne h1 e he
  exact (C137_corrections_complete_prefix exH_wf exH_words (by decide +kernel) .fresh hne h1 e he).1

end Thot.WgProc
