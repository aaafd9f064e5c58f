import Verif.WgProc.Sweep

/-! The state of the processor as a function of the prefix. -/

namespace Thot.WgProc

open Thot.WordGraph (WG Arc small Live Path Allowed Topo WF FinalOk)
open Thot.EditDist (Costs Op PWord pairC prefWords)

/-- The state of the processor with `L` positions computed. -/
def rep (g : WG) (P : Par) (raw : Nat → Str) (Y : Nat → PWord) (pv : List Str) (rest : List Score) (L : Nat) : PS where
  prefVec := pv
  rest := rest
  esiS := fun s => if fed g g.arcs.length s then (List.range L).map fun j => (tab g P raw Y g.arcs.length s j).scr else []
  esiA := arcEsis g P raw Y L
  wgS := wgT g g.arcs.length
  best := fun s => if fed g g.arcs.length s then (List.range L).map fun j => (tab g P raw Y g.arcs.length s j).best else []
  preds := fun s => if fed g g.arcs.length s then (List.range L).map fun j => (tab g P raw Y g.arcs.length s j).pred else []

section

variable {g : WG} {P : Par} {raw : Nat → Str} {Y : Nat → PWord}

theorem liveArc_none_of_le {n : Nat} (h : g.arcs.length ≤ n) : liveArc g n = none := by
  unfold liveArc
  split
  · exact List.getElem?_eq_none h
  · rfl

theorem mid_last {pv : List Str} {rest : List Score} {oldW : Nat → Score} {oldA : Nat → List Esi} {L0 L : Nat}
    (hA : ∀ n, liveArc g n = none → oldA n = []) (hW : ∀ s, fed g g.arcs.length s = false → oldW s = 0) :
    mid g P raw Y pv rest oldW oldA L0 L g.arcs.length = rep g P raw Y pv rest L := by
  have hv : ∀ {A : Type} (f : Cell → A), vecF g P raw Y f L0 L g.arcs.length =
      fun s => if fed g g.arcs.length s then (List.range L).map fun j => f (tab g P raw Y g.arcs.length s j) else [] := by
    intro A f
    funext s
    unfold vecF
    by_cases h : fed g g.arcs.length s = true
    · simp only [h, if_true, ite_self]
    · have h' : fed g g.arcs.length s = false := by simpa using h
      simp only [h', Bool.false_eq_true, if_false]
  unfold mid rep
  rw [hv, hv, hv]
  congr 1
  · funext id
    by_cases h : id < g.arcs.length
    · simp only [h, if_true]
    · have hn := liveArc_none_of_le (g := g) (n := id) (by omega)
      simp only [h, if_false, hA id hn, arcEsis, hn]
  · funext s
    by_cases h : fed g g.arcs.length s = true
    · simp only [h, if_true]
    · have h' : fed g g.arcs.length s = false := by simpa using h
      simp only [h', Bool.false_eq_true, if_false, hW s h', wgT_unfed h']

theorem initVars_ok (ht : Topo g) (hw : WF g) (hc : Conn g) {rest : List Score} (hr : WordGraph.calcRestScores g = some rest) :
    initVars g P = some (rep g P raw Y [] rest 1) := by
  unfold initVars
  rw [hr, initEsi, wordEditDist_nil]
  simp only [Option.map_some]
  have h0 : updateInit g P ⟨[], rest, upd (fun _ => []) 0 [0], fun _ => [], fun _ => 0, fun _ => [], fun _ => []⟩ =
      mid g P raw Y [] rest (fun _ => 0) (fun _ => []) 0 1 0 := by
    have hv : ∀ {A : Type} (f : Cell → A), upd (fun _ => ([] : List A)) 0 [f (tab g P raw Y 0 0 0)] = vecF g P raw Y f 0 1 0 := by
      intro A f
      funext s
      unfold upd vecF
      by_cases h : s = 0
      · subst h; simp [fed]
      · simp [h, fed]
    unfold updateInit mid
    rw [← hv, ← hv, ← hv]
    simp only [upd, if_true, List.map_cons, List.map_nil, tab, row0, Nat.not_lt_zero, if_false, fed, beq_iff_eq, wgT]
    congr 1
    funext s
    by_cases h : s = 0 <;> simp [h, upd]
  rw [h0, List.range_eq_range', sweep_ok hw (fun _ _ => rfl) ?_ g.arcs.length 0 (by omega), mid_last (fun _ _ => rfl) (fun _ _ => rfl)]
  intro n a hn ha
  unfold initArc
  have hes : (mid g P raw Y [] rest (fun _ => 0) (fun _ => []) 0 1 n).esiS a.pred = [(tab g P raw Y n a.pred 0).scr] := by
    simp only [mid, vecF_pred Cell.scr ht hc (Nat.le_of_lt hn) ha]; rfl
  rw [hes, initWords_ok (Y := Y) a.words fun j => (tab g P raw Y n a.pred j).scr]
  simp only
  have hae : arcEsis g P raw Y 1 n = esis P.k Y 1 a.words fun j => (tab g P raw Y n a.pred j).scr := by
    simp only [arcEsis, liveArc_iff.2 ha, tab_stable P raw Y ht ha _ (Nat.le_of_lt hn)]
  rw [← hae]
  exact update_ok ht hc (by omega) (by omega) (by simp) hn ha

theorem procDiff_ok (ht : Topo g) (hw : WF g) (hc : Conn g) {pv : List Str} {rest : List Score} {d : List Str} {m : Nat}
    (hraw : ∀ t, t < d.length → some (raw (m + t)) = d[t]?) (hY : ∀ t, t < d.length → some (Y (m + t)) = (prefWords d)[t]?) :
    procDiff g P d (rep g P raw Y pv rest (m + 1)) = some (rep g P raw Y pv rest (m + d.length + 1)) := by
  unfold procDiff
  by_cases hd : d = []
  · subst hd; rfl
  · rw [if_neg hd]
    have hdl : 0 < d.length := List.length_pos_iff.2 hd
    have hf0 : fed g g.arcs.length 0 = true := fed_mono (Nat.zero_le _) (by simp [fed])
    have hA : ∀ n, liveArc g n = none → arcEsis g P raw Y (m + 1) n = [] := fun n h => by simp [arcEsis, h]
    have h0 : updateInit g P { rep g P raw Y pv rest (m + 1) with
          esiS := upd (rep g P raw Y pv rest (m + 1)).esiS 0 (firstRow P.k d ((rep g P raw Y pv rest (m + 1)).esiS 0)) } =
        mid g P raw Y pv rest (wgT g g.arcs.length) (arcEsis g P raw Y (m + 1)) (m + 1) (m + d.length + 1) 0 := by
      have hs0 : (rep g P raw Y pv rest (m + 1)).esiS 0 = (List.range (m + 1)).map (row0 P.k raw) := by
        simp only [rep, hf0, if_true, tab_src P raw Y hc, tab]
      have hv : ∀ {A : Type} (f : Cell → A), upd (fun s => if fed g g.arcs.length s = true then
          (List.range (m + 1)).map fun j => f (tab g P raw Y g.arcs.length s j) else []) 0
            ((List.range (m + d.length + 1)).map fun j => f (tab g P raw Y 0 0 j)) =
          vecF g P raw Y f (m + 1) (m + d.length + 1) 0 := by
        intro A f
        funext s
        unfold upd vecF
        by_cases h : s = 0
        · subst h; simp only [fed, if_true, beq_self_eq_true, tab_src P raw Y hc, ite_self]
        · simp [h, fed]
      unfold updateInit mid
      rw [← hv, ← hv, ← hv, hs0, firstRow_ok d m hraw]
      simp only [upd, if_true, List.map_map, tab, fed, beq_iff_eq, wgT]
      congr 1
      funext s
      by_cases h : s = 0
      · simp [h, upd]
      · simp [h, upd, rep]
    rw [h0, List.range_eq_range', sweep_ok hw hA ?_ g.arcs.length 0 (by omega), mid_last hA (fun _ h => wgT_unfed h)]
    intro n a hn ha
    unfold extendArc
    have hes : (mid g P raw Y pv rest (wgT g g.arcs.length) (arcEsis g P raw Y (m + 1)) (m + 1) (m + d.length + 1) n).esiS a.pred =
        (List.range (m + d.length + 1)).map fun j => (tab g P raw Y n a.pred j).scr := by
      simp only [mid, vecF_pred Cell.scr ht hc (Nat.le_of_lt hn) ha]
    have hae : ∀ L, arcEsis g P raw Y L n = esis P.k Y L a.words fun j => (tab g P raw Y n a.pred j).scr := by
      intro L
      simp only [arcEsis, liveArc_iff.2 ha, tab_stable P raw Y ht ha _ (Nat.le_of_lt hn)]
    have hea : (mid g P raw Y pv rest (wgT g g.arcs.length) (arcEsis g P raw Y (m + 1)) (m + 1) (m + d.length + 1) n).esiA n =
        esis P.k Y (m + 1) a.words fun j => (tab g P raw Y n a.pred j).scr := by
      simp only [mid, Nat.lt_irrefl, if_false, hae]
    rw [hes, hea, extendWords_ok hY]
    simp only
    rw [← hae]
    exact update_ok ht hc (by omega) (by omega) (by rw [if_neg (by omega)]; omega) hn ha

/-! ## Removing positions -/

theorem removeLast_range {A : Type} (f : Nat → A) (L : Nat) (h : 0 < L) :
    removeLast ((List.range (L + 1)).map f) = (List.range L).map f := by
  unfold removeLast
  rw [if_pos (by simp; omega), range_map_succ, List.dropLast_concat]

theorem removeN_range {A : Type} (f : Nat → A) : ∀ (n L : Nat), 0 < L → removeN n ((List.range (L + n)).map f) = (List.range L).map f := by
  intro n
  induction n with
  | zero => intro L _; rfl
  | succ n ih =>
    intro L h
    rw [removeN, ← Nat.add_assoc, removeLast_range f (L + n) (by omega), ih L h]

theorem popN_range {A : Type} (f : Nat → A) (n L : Nat) : popN n ((List.range (L + n)).map f) = some ((List.range L).map f) := by
  unfold popN
  rw [if_pos (by simp), List.length_map, List.length_range, Nat.add_sub_cancel, ← List.map_take, List.take_range,
    Nat.min_eq_left (by omega)]

theorem shrinkStates_ok {n L : Nat} (hL : 0 < L) {fS fB : Nat → Nat → Score} {fP : Nat → Nat → Option Nat} :
    ∀ (l : List Nat) (st : PS), l.Nodup → (∀ s ∈ l, st.esiS s = (List.range (L + n)).map (fS s) ∧
      st.best s = (List.range (L + n)).map (fB s) ∧ st.preds s = (List.range (L + n)).map (fP s)) →
    shrinkStates n l st = some { st with
      esiS := fun s => if s ∈ l then (List.range L).map (fS s) else st.esiS s
      best := fun s => if s ∈ l then (List.range L).map (fB s) else st.best s
      preds := fun s => if s ∈ l then (List.range L).map (fP s) else st.preds s } := by
  intro l
  induction l with
  | nil => intro st _ _; simp [shrinkStates]
  | cons s l ih =>
    intro st hd h
    obtain ⟨h1, h2, h3⟩ := h s (by simp)
    have hd' := List.nodup_cons.1 hd
    unfold shrinkStates
    rw [h1, h2, h3, popN_range, popN_range, removeN_range _ _ _ hL]
    simp only
    rw [ih _ hd'.2]
    · simp only [Option.some.injEq]
      congr 1 <;>
      · funext t
        by_cases ht : t ∈ l
        · have : t ≠ s := fun h => hd'.1 (h ▸ ht)
          simp [ht]
        · by_cases hs : t = s
          · subst hs; simp [ht, upd]
          · simp [ht, hs, upd]
    · intro t ht
      have : t ≠ s := fun h => hd'.1 (h ▸ ht)
      simp only [upd, if_neg this]
      exact h t (by simp [ht])

theorem esis_removeN {k : Costs} {n L : Nat} (hL : 0 < L) : ∀ (ws : List Str) (u : Nat → Score),
    (esis k Y (L + n) ws u).map (fun e => Esi.mk (removeN n e.scr) (removeN n e.op)) = esis k Y L ws u := by
  intro ws
  induction ws with
  | nil => intro u; rfl
  | cons x xs ih =>
    intro u
    simp only [esis, List.map_cons, removeN_range _ _ _ hL, ih]

/-- The states that keep vectors are the ends of the arcs. -/
theorem mem_inv_iff (hc : Conn g) (hex : ∃ i a, Live g i a) {inv : List Nat}
    (h : involved g (List.range g.arcs.length) [] = some inv) : inv.Nodup ∧ ∀ s, s ∈ inv ↔ fed g g.arcs.length s = true := by
  obtain ⟨h1, h2⟩ := involved_spec _ h List.Pairwise.nil
  refine ⟨h1.imp fun h => Nat.ne_of_lt h, fun s => ?_⟩
  rw [h2 s]
  simp only [List.not_mem_nil, false_or, List.any_eq_true, List.mem_range, Bool.and_eq_true, Bool.or_eq_true, beq_iff_eq]
  constructor
  · rintro ⟨i, hi, hp, h3⟩
    cases ha : g.arcs[i]? with
    | none => simp [ha] at h3
    | some a =>
      have hl : Live g i a := ⟨ha, hp⟩
      simp only [ha, Option.map_some, Option.some.injEq] at h3
      rcases h3 with rfl | rfl
      · exact fed_mono (Nat.le_of_lt hi) (hc.fed i a hl)
      · exact fed_mono hi (fed_succ hl)
  · intro hf
    have key : ∀ n, n ≤ g.arcs.length → fed g n s = true → s = 0 ∨ ∃ i, i < g.arcs.length ∧ g.pruned[i]? = some false ∧
        (g.arcs[i]?.map Arc.succ = some s) := by
      intro n
      induction n with
      | zero => intro _ h; left; simpa [fed] using h
      | succ n ih =>
        intro hn h
        simp only [fed, Bool.or_eq_true, beq_iff_eq] at h
        rcases h with h | h
        · exact ih (by omega) h
        · cases hl : liveArc g n with
          | none => simp [hl] at h
          | some a =>
            have ha := liveArc_iff.1 hl
            refine Or.inr ⟨n, by omega, ha.2, ?_⟩
            rw [hl] at h; rw [ha.1]; exact h
    rcases key _ (Nat.le_refl _) hf with rfl | ⟨i, h1, h2, h3⟩
    · -- the first arc leaves the initial state
      obtain ⟨i, a, hl⟩ := hex
      have hmin : ∃ i a, Live g i a ∧ a.pred = 0 := by
        have : ∀ n i a, i < n → Live g i a → ∃ i a, Live g i a ∧ a.pred = 0 := by
          intro n
          induction n with
          | zero => intro i a h; omega
          | succ n ih =>
            intro i a hi hl
            have hf := hc.fed i a hl
            by_cases h0 : a.pred = 0
            · exact ⟨i, a, hl, h0⟩
            · have : ∀ m, fed g m a.pred = true → ∃ j b, j < m ∧ Live g j b := by
                intro m
                induction m with
                | zero => intro h; simp [fed, h0] at h
                | succ m ihm =>
                  intro h
                  simp only [fed, Bool.or_eq_true, beq_iff_eq] at h
                  rcases h with h | h
                  · obtain ⟨j, b, hj, hb⟩ := ihm h; exact ⟨j, b, by omega, hb⟩
                  · cases hlm : liveArc g m with
                    | none => simp [hlm] at h
                    | some b => exact ⟨m, b, by omega, liveArc_iff.1 hlm⟩
              obtain ⟨j, b, hj, hb⟩ := this i hf
              exact ih j b (by omega) hb
        exact this (i + 1) i a (by omega) hl
      obtain ⟨i, a, hl, h0⟩ := hmin
      refine ⟨i, (List.getElem?_eq_some_iff.1 hl.1).1, hl.2, Or.inl ?_⟩
      rw [hl.1]; simp [h0]
    · exact ⟨i, h1, h2, Or.inr h3⟩

theorem shrink_ok (hc : Conn g) (hex : ∃ i a, Live g i a) {inv : List Nat}
    (h : involved g (List.range g.arcs.length) [] = some inv) {pv : List Str} {rest : List Score} {n L : Nat} (hL : 0 < L) :
    shrink inv n (rep g P raw Y pv rest (L + n)) = some (rep g P raw Y pv rest L) := by
  obtain ⟨h1, h2⟩ := mem_inv_iff hc hex h
  unfold shrink
  rw [shrinkStates_ok (L := L) (fS := fun s j => (tab g P raw Y g.arcs.length s j).scr)
    (fB := fun s j => (tab g P raw Y g.arcs.length s j).best) (fP := fun s j => (tab g P raw Y g.arcs.length s j).pred) hL inv _ h1]
  · unfold rep
    simp only [h2, Option.some.injEq]
    congr 1
    · funext s; split <;> simp_all
    · funext id
      unfold arcEsis
      cases hl : liveArc g id with
      | none => rfl
      | some a => exact esis_removeN hL _ _
    · funext s; split <;> simp_all
    · funext s; split <;> simp_all
  · intro s hs
    have := (h2 s).1 hs
    simp only [rep, this, if_true, and_self]

end

/-- Only the positions that are computed matter. -/
theorem rep_congr {g : WG} {P : Par} {raw raw' : Nat → Str} {Y Y' : Nat → PWord} {pv : List Str} {rest : List Score} {m : Nat}
    (hr : ∀ i < m, raw i = raw' i) (hY : ∀ i < m, Y i = Y' i) :
    rep g P raw Y pv rest (m + 1) = rep g P raw' Y' pv rest (m + 1) := by
  have ht := tab_congr (g := g) (P := P) hr hY
  have hm : ∀ {A : Type} (f : Cell → A) (s : Nat), ((List.range (m + 1)).map fun j => f (tab g P raw Y g.arcs.length s j)) =
      (List.range (m + 1)).map fun j => f (tab g P raw' Y' g.arcs.length s j) := by
    intro A f s
    apply List.map_congr_left
    intro j hj
    rw [ht _ _ j (by have := List.mem_range.1 hj; omega)]
  unfold rep
  simp only [hm]
  congr 1
  funext id
  unfold arcEsis
  cases liveArc g id with
  | none => rfl
  | some a => exact esis_congr hY _ fun i hi => by rw [ht _ _ i hi]

end Thot.WgProc
