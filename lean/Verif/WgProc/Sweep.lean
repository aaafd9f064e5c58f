import Verif.WgProc.Tables

/-! The loops over the arcs compute the functions of `Tables.lean`. -/

namespace Thot.WgProc

open Thot.WordGraph (WG Arc small Live Path Allowed Topo WF FinalOk)
open Thot.EditDist (Costs Op PWord pairC prefWords)

/-- Every arc leaves the initial state or a state entered by an earlier arc, and none enters the initial state. -/
structure Conn (g : WG) : Prop where
  fed : ∀ i a, Live g i a → fed g i a.pred = true
  nosrc : ∀ i a, Live g i a → a.succ ≠ 0

theorem fed_mono {g : WG} {s : Nat} : ∀ {n m : Nat}, n ≤ m → fed g n s = true → fed g m s = true := by
  intro n m h
  induction h with
  | refl => exact id
  | step _ ih => intro hf; simp only [fed, ih hf, Bool.true_or]

theorem fed_succ {g : WG} {n : Nat} {a : Arc} (h : Live g n a) : fed g (n + 1) a.succ = true := by
  simp only [fed, liveArc_iff.2 h, Option.map_some, beq_self_eq_true, Bool.or_true]

section

variable (g : WG) (P : Par) (raw : Nat → Str) (Y : Nat → PWord)

theorem wgT_stable {g : WG} (ht : Topo g) {n : Nat} {a : Arc} (h : Live g n a) : ∀ m, n ≤ m → wgT g m a.pred = wgT g n a.pred := by
  intro m hm
  induction hm with
  | refl => rfl
  | @step m hm ih =>
    rw [← ih]
    simp only [wgT]
    cases hl : liveArc g m with
    | none => rfl
    | some b =>
      have := ht n m a b h.1 (liveArc_iff.1 hl).1 hm
      simp only [if_neg (Ne.symm this)]

theorem tab_stable {g : WG} (ht : Topo g) {n : Nat} {a : Arc} (h : Live g n a) : ∀ m, n ≤ m →
    tab g P raw Y m a.pred = tab g P raw Y n a.pred := by
  intro m hm
  induction hm with
  | refl => rfl
  | @step m hm ih =>
    rw [← ih]
    funext j
    simp only [tab]
    cases hl : liveArc g m with
    | none => rfl
    | some b =>
      have := ht n m a b h.1 (liveArc_iff.1 hl).1 hm
      simp only [if_neg (Ne.symm this)]

theorem wgT_unfed {g : WG} : ∀ {n s : Nat}, fed g n s = false → wgT g n s = 0 := by
  intro n
  induction n with
  | zero => intro s h; simp only [fed, beq_eq_false_iff_ne] at h; simp [wgT, h]
  | succ n ih =>
    intro s h
    simp only [fed, Bool.or_eq_false_iff] at h
    simp only [wgT]
    cases hl : liveArc g n with
    | none => exact ih h.1
    | some a =>
      have : s ≠ a.succ := by intro he; simp [hl, he] at h
      simp only [if_neg this]; exact ih h.1

theorem tab_unfed {g : WG} : ∀ {n s : Nat}, fed g n s = false → ∀ j, tab g P raw Y n s j = ⟨small, none, 0⟩ := by
  intro n
  induction n with
  | zero => intro s h j; simp only [fed, beq_eq_false_iff_ne] at h; simp [tab, h]
  | succ n ih =>
    intro s h j
    simp only [fed, Bool.or_eq_false_iff] at h
    simp only [tab]
    cases hl : liveArc g n with
    | none => exact ih h.1 j
    | some a =>
      have : s ≠ a.succ := by intro he; simp [hl, he] at h
      simp only [if_neg this]; exact ih h.1 j

theorem tab_src {g : WG} (hc : Conn g) : ∀ n j, tab g P raw Y n 0 j = tab g P raw Y 0 0 j := by
  intro n
  induction n with
  | zero => intro j; rfl
  | succ n ih =>
    intro j
    rw [← ih j]
    conv => lhs; unfold tab
    cases hl : liveArc g n with
    | none => rfl
    | some a =>
      have := hc.nosrc n a (liveArc_iff.1 hl)
      simp only [if_neg (Ne.symm this)]

theorem wgT_src {g : WG} (hc : Conn g) : ∀ n, wgT g n 0 = g.init := by
  intro n
  induction n with
  | zero => rfl
  | succ n ih =>
    simp only [wgT]
    cases hl : liveArc g n with
    | none => exact ih
    | some a =>
      have := hc.nosrc n a (liveArc_iff.1 hl)
      simp only [if_neg (Ne.symm this)]; exact ih

/-- The vector of a state while the arcs are visited: `n` arcs have been visited, `L0` positions were known, `L` are wanted. -/
def vecF {A : Type} (f : Cell → A) (L0 L n s : Nat) : List A :=
  if fed g n s then (List.range L).map fun j => if j < L0 then f (tab g P raw Y g.arcs.length s j) else f (tab g P raw Y n s j)
  else if fed g g.arcs.length s then (List.range L0).map fun j => f (tab g P raw Y g.arcs.length s j)
  else []

/-- The vectors of the words of an arc. -/
def arcEsis (L id : Nat) : List Esi :=
  match liveArc g id with
  | none => []
  | some a => esis P.k Y L a.words fun j => (tab g P raw Y g.arcs.length a.pred j).scr

/-- The state of the processor while the arcs are visited. -/
def mid (pv : List Str) (rest : List Score) (oldW : Nat → Score) (oldA : Nat → List Esi) (L0 L n : Nat) : PS where
  prefVec := pv
  rest := rest
  esiS := vecF g P raw Y Cell.scr L0 L n
  esiA := fun id => if id < n then arcEsis g P raw Y L id else oldA id
  wgS := fun s => if fed g n s then wgT g n s else oldW s
  best := vecF g P raw Y Cell.best L0 L n
  preds := vecF g P raw Y Cell.pred L0 L n

variable {g P raw Y}

theorem vecF_skip {A : Type} (f : Cell → A) {L0 L n : Nat} (h : liveArc g n = none) :
    vecF g P raw Y f L0 L (n + 1) = vecF g P raw Y f L0 L n := by
  funext s
  have h1 : fed g (n + 1) s = fed g n s := by simp [fed, h]
  have h2 : ∀ j, tab g P raw Y (n + 1) s j = tab g P raw Y n s j := fun j => by simp only [tab, h]
  simp only [vecF, h1, h2]

theorem mid_skip {pv : List Str} {rest : List Score} {oldW : Nat → Score} {oldA : Nat → List Esi} {L0 L n : Nat}
    (h : liveArc g n = none) (hA : oldA n = []) :
    mid g P raw Y pv rest oldW oldA L0 L (n + 1) = mid g P raw Y pv rest oldW oldA L0 L n := by
  unfold mid
  rw [vecF_skip _ h, vecF_skip _ h, vecF_skip _ h]
  congr 1
  · funext id
    by_cases h1 : id = n
    · subst h1; simp [hA, arcEsis, h]
    · have h2 : id < n + 1 ↔ id < n := by omega
      simp only [h2]
  · funext s
    have h1 : fed g (n + 1) s = fed g n s := by simp [fed, h]
    simp only [h1, wgT, h]

/-- The vector of the predecessor of the arc that is visited. -/
theorem vecF_pred {A : Type} (f : Cell → A) (ht : Topo g) (hc : Conn g) {L0 L n : Nat} (hn : n ≤ g.arcs.length) {a : Arc}
    (h : Live g n a) : vecF g P raw Y f L0 L n a.pred = (List.range L).map fun j => f (tab g P raw Y n a.pred j) := by
  unfold vecF
  rw [if_pos (hc.fed n a h)]
  simp only [tab_stable P raw Y ht h _ hn, ite_self]

/-- The vector of the successor of the arc that is visited, with the elements that are added. -/
theorem vecF_succ {A : Type} (f : Cell → A) {L0 L n : Nat} (hL : L0 ≤ L) (hn : n < g.arcs.length) {a : Arc}
    (h : Live g n a) : pad L (f ⟨small, none, 0⟩) (vecF g P raw Y f L0 L n a.succ) =
      (List.range L).map fun j => if j < L0 then f (tab g P raw Y g.arcs.length a.succ j) else f (tab g P raw Y n a.succ j) := by
  unfold vecF
  by_cases hf : fed g n a.succ = true
  · rw [if_pos hf]; simp [pad]
  · have hf' : fed g n a.succ = false := by simpa using hf
    rw [if_neg hf, if_pos (fed_mono hn (fed_succ h))]
    simp only [tab_unfed P raw Y hf', pad, List.length_map, List.length_range]
    apply List.ext_getElem?
    intro j
    rw [getElem?_range_map, List.getElem?_append, List.length_map, List.length_range]
    by_cases h1 : j < L0
    · rw [if_pos h1, getElem?_range_map, if_pos h1, if_pos (by omega), if_pos h1]
    · rw [if_neg h1, List.getElem?_replicate]
      by_cases h2 : j < L
      · rw [if_pos h2, if_pos (by omega), if_neg h1]
      · rw [if_neg h2, if_neg (by omega)]

theorem getD_range_map {A : Type} (f : Nat → A) (L j : Nat) (d : A) (h : j < L) : ((List.range L).map f).getD j d = f j := by
  rw [List.getD_eq_getElem?_getD, getElem?_range_map, if_pos h]; rfl

/-- Visiting an arc. -/
theorem update_ok (ht : Topo g) (hc : Conn g) {pv : List Str} {rest : List Score} {oldW : Nat → Score} {oldA : Nat → List Esi}
    {L0 L n diff : Nat} (hL : L0 ≤ L) (hd : diff ≤ L) (hstart : L - (if diff = 0 then L else diff) = L0)
    (hn : n < g.arcs.length) {a : Arc} (h : Live g n a) :
    updateState P n a diff { mid g P raw Y pv rest oldW oldA L0 L n with
        esiA := upd (mid g P raw Y pv rest oldW oldA L0 L n).esiA n (arcEsis g P raw Y L n) } =
      some (mid g P raw Y pv rest oldW oldA L0 L (n + 1)) := by
  have hla := liveArc_iff.2 h
  have hpred : tab g P raw Y g.arcs.length a.pred = tab g P raw Y n a.pred := tab_stable P raw Y ht h _ (by omega)
  have hecm : arcEcm { mid g P raw Y pv rest oldW oldA L0 L n with
        esiA := upd (mid g P raw Y pv rest oldW oldA L0 L n).esiA n (arcEsis g P raw Y L n) } n a =
      (List.range L).map (rowWords P.k Y a.words fun j => (tab g P raw Y n a.pred j).scr) := by
    rw [← esis_last]
    unfold arcEcm
    simp only [upd, if_true, arcEsis, hla, hpred, mid, vecF_pred Cell.scr ht hc (Nat.le_of_lt hn) h]
    rfl
  unfold updateState
  rw [hecm]
  unfold updateWith
  simp only [List.length_map, List.length_range]
  have hb : (mid g P raw Y pv rest oldW oldA L0 L n).best = vecF g P raw Y Cell.best L0 L n := rfl
  have hp : (mid g P raw Y pv rest oldW oldA L0 L n).preds = vecF g P raw Y Cell.pred L0 L n := rfl
  have hs : (mid g P raw Y pv rest oldW oldA L0 L n).esiS = vecF g P raw Y Cell.scr L0 L n := rfl
  have hw : (mid g P raw Y pv rest oldW oldA L0 L n).wgS a.pred = wgT g n a.pred := by
    simp only [mid, hc.fed n a h, if_true]
  have eb := vecF_succ (P := P) (raw := raw) (Y := Y) Cell.best hL hn h
  have ep := vecF_succ (P := P) (raw := raw) (Y := Y) Cell.pred hL hn h
  have es := vecF_succ (P := P) (raw := raw) (Y := Y) Cell.scr hL hn h
  simp only at eb ep es
  simp only [hb, hp, hs, hw, eb, ep, es, List.length_map, List.length_range, true_and, hd, if_true, Option.some.injEq]
  -- the new cells
  have hcells : newCells P n (wgT g n a.pred + a.score) diff
      ((List.range L).map (rowWords P.k Y a.words fun j => (tab g P raw Y n a.pred j).scr))
      ((List.range L).map fun j => if j < L0 then (tab g P raw Y g.arcs.length a.succ j).best else (tab g P raw Y n a.succ j).best)
      ((List.range L).map fun j => if j < L0 then (tab g P raw Y g.arcs.length a.succ j).pred else (tab g P raw Y n a.succ j).pred)
      ((List.range L).map fun j => if j < L0 then (tab g P raw Y g.arcs.length a.succ j).scr else (tab g P raw Y n a.succ j).scr) =
      (List.range L).map fun j => if j < L0 then tab g P raw Y g.arcs.length a.succ j else tab g P raw Y (n + 1) a.succ j := by
    unfold newCells
    simp only [List.length_map, List.length_range, hstart]
    apply List.map_congr_left
    intro j hj
    have hj' := List.mem_range.1 hj
    simp only [getD_range_map _ L j _ hj']
    by_cases h1 : j < L0
    · rw [if_neg (by omega)]; simp only [h1, if_true]
    · rw [if_pos (by omega)]
      simp only [h1, if_false]
      simp only [tab, hla, if_true]
  rw [hcells]
  have hfed : fed g (n + 1) a.succ = true := fed_succ h
  have hsucc : ∀ {A : Type} (f : Cell → A), ((List.range L).map fun j =>
      if j < L0 then tab g P raw Y g.arcs.length a.succ j else tab g P raw Y (n + 1) a.succ j).map f =
      vecF g P raw Y f L0 L (n + 1) a.succ := by
    intro A f
    unfold vecF
    rw [if_pos hfed, List.map_map]
    apply List.map_congr_left
    intro j _
    simp only [Function.comp]
    split <;> rfl
  have hother : ∀ {A : Type} (f : Cell → A) (s : Nat), s ≠ a.succ →
      vecF g P raw Y f L0 L (n + 1) s = vecF g P raw Y f L0 L n s := by
    intro A f s hs
    have h1 : fed g (n + 1) s = fed g n s := by
      simp only [fed, hla, Option.map_some]
      have : (some a.succ == some s) = false := by simpa using Ne.symm hs
      rw [this, Bool.or_false]
    have h2 : ∀ j, tab g P raw Y (n + 1) s j = tab g P raw Y n s j := fun j => by simp only [tab, hla, if_neg hs]
    unfold vecF
    simp only [h1, h2]
  have hvec : ∀ {A : Type} (f : Cell → A), upd (vecF g P raw Y f L0 L n) a.succ (((List.range L).map fun j =>
      if j < L0 then tab g P raw Y g.arcs.length a.succ j else tab g P raw Y (n + 1) a.succ j).map f) =
      vecF g P raw Y f L0 L (n + 1) := by
    intro A f
    funext s
    unfold upd
    split
    · rename_i hs; subst hs; exact hsucc f
    · rename_i hs; exact (hother f s hs).symm
  rw [hvec, hvec, hvec]
  unfold mid
  congr 1
  · funext id
    unfold upd
    split
    · rename_i hid; subst hid; simp
    · rename_i hid
      have h2 : id < n + 1 ↔ id < n := by omega
      simp only [h2]
  · funext s
    unfold upd
    split
    · rename_i hs; subst hs; simp only [hfed, if_true, wgT, hla]
    · rename_i hs
      have h1 : fed g (n + 1) s = fed g n s := by
        simp only [fed, hla, Option.map_some]
        have : (some a.succ == some s) = false := by simpa using Ne.symm hs
        rw [this, Bool.or_false]
      simp only [h1, wgT, hla, if_neg hs]

/-- Visiting all the arcs. -/
theorem sweep_ok (hw : WF g) {f : Nat → Arc → PS → Option PS} {pv : List Str} {rest : List Score} {oldW : Nat → Score}
    {oldA : Nat → List Esi} {L0 L : Nat} (hA : ∀ n, liveArc g n = none → oldA n = [])
    (hf : ∀ n a, n < g.arcs.length → Live g n a → f n a (mid g P raw Y pv rest oldW oldA L0 L n) =
      some (mid g P raw Y pv rest oldW oldA L0 L (n + 1))) :
    ∀ m n, n + m = g.arcs.length → sweep g f (List.range' n m) (mid g P raw Y pv rest oldW oldA L0 L n) =
      some (mid g P raw Y pv rest oldW oldA L0 L g.arcs.length) := by
  intro m
  induction m with
  | zero => intro n hn; have : n = g.arcs.length := by omega
            subst this; rfl
  | succ m ih =>
    intro n hn
    have hlt : n < g.arcs.length := by omega
    obtain ⟨a, ha⟩ : ∃ a, g.arcs[n]? = some a := ⟨_, List.getElem?_eq_getElem hlt⟩
    obtain ⟨b, hb⟩ : ∃ b, g.pruned[n]? = some b := ⟨_, List.getElem?_eq_getElem (by rw [hw.pruned]; exact hlt)⟩
    rw [List.range'_succ]
    unfold sweep
    simp only [ha, hb]
    cases b with
    | true =>
      have hnl : liveArc g n = none := by simp [liveArc, hb]
      simp only [if_true]
      rw [← mid_skip hnl (hA n hnl)]
      exact ih (n + 1) (by omega)
    | false =>
      simp only [Bool.false_eq_true, if_false, hf n a hlt ⟨ha, hb⟩]
      exact ih (n + 1) (by omega)

end

end Thot.WgProc
