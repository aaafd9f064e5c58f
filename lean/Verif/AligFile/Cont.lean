import Verif.AligFile.ContModel
import Verif.AligFile.OpsFile
/-! Invariants of the alignment container. -/
namespace Thot.AligFile
open Thot.WordAlig (Mat)
open Thot.Vocab (showNat atoi)
open Thot.SentHandler (joinWords Word)

/-! ### Vocabularies -/

def VocOk (v : Voc) : Prop :=
  v.inv.Nodup ∧ v.map.length = v.inv.length ∧ ∀ w i, AMap.lk v.map w = some i ↔ v.inv[i]? = some w

def Valid (inv : List Str) (ids : List Nat) : Prop := ∀ i ∈ ids, i < inv.length

theorem encWord_ok (v : Voc) (h : VocOk v) (w : Str) :
    VocOk (encWord v w).1 ∧ v.inv <+: (encWord v w).1.inv ∧ (encWord v w).1.inv[(encWord v w).2]? = some w := by
  obtain ⟨h1, h2, h3⟩ := h
  unfold encWord
  cases hl : AMap.lk v.map w with
  | some i => exact ⟨⟨h1, h2, h3⟩, List.prefix_refl _, (h3 w i).1 hl⟩
  | none =>
    have hn : w ∉ v.inv := by
      intro hm
      obtain ⟨i, hi, he⟩ := List.mem_iff_getElem.1 hm
      have := (h3 w i).2 (by rw [List.getElem?_eq_getElem hi, he])
      rw [hl] at this; cases this
    refine ⟨⟨?_, ?_, ?_⟩, List.prefix_append _ _, ?_⟩
    · simp only
      rw [List.nodup_append]
      refine ⟨h1, by simp, ?_⟩
      intro a ha b hb
      rw [List.mem_singleton] at hb
      rintro rfl
      exact hn (hb ▸ ha)
    · simp only
      rw [AMap.length_put, hl]
      simp [h2]
    · intro w' i
      simp only
      rw [AMap.lk_put, h2]
      by_cases hw : w' = w
      · subst hw
        simp only [if_true, Option.some.injEq]
        constructor
        · rintro rfl; simp
        · intro hg
          by_cases hi : i < v.inv.length
          · rw [List.getElem?_append_left hi] at hg
            exact absurd (List.mem_of_getElem? hg) hn
          · rw [List.getElem?_append_right (by omega)] at hg
            have := (List.getElem?_eq_some_iff.1 hg).1
            simp at this; omega
      · rw [if_neg hw, h3]
        by_cases hi : i < v.inv.length
        · rw [List.getElem?_append_left hi]
        · rw [List.getElem?_append_right (by omega), List.getElem?_eq_none (by omega)]
          constructor
          · intro hc; cases hc
          · intro hg
            have hg2 := List.mem_of_getElem? hg
            rw [List.mem_singleton] at hg2
            exact absurd hg2 hw
    · simp [h2]

theorem decode_cons (inv : List Str) (i : Nat) (ids : List Nat) (w : Str) (h : inv[i]? = some w) :
    decode inv (i :: ids) = w :: decode inv ids := by
  unfold decode; rw [List.filterMap_cons, h]

theorem get_prefix {inv inv' : List Str} (h : inv <+: inv') {i : Nat} (hi : i < inv.length) : inv'[i]? = inv[i]? := by
  obtain ⟨r, rfl⟩ := h
  exact List.getElem?_append_left hi

theorem valid_prefix {inv inv' : List Str} (h : inv <+: inv') {ids : List Nat} (hv : Valid inv ids) : Valid inv' ids :=
  fun i hi => Nat.lt_of_lt_of_le (hv i hi) h.length_le

theorem decode_prefix {inv inv' : List Str} (h : inv <+: inv') {ids : List Nat} (hv : Valid inv ids) : decode inv' ids = decode inv ids := by
  induction ids with
  | nil => rfl
  | cons i ids ih =>
    have hi := hv i List.mem_cons_self
    rw [decode_cons inv' i ids _ (by rw [get_prefix h hi, List.getElem?_eq_getElem hi]), decode_cons inv i ids _ (List.getElem?_eq_getElem hi),
      ih (fun j hj => hv j (List.mem_cons_of_mem _ hj))]

theorem encode_ok (ws : Sent) : ∀ v : Voc, VocOk v →
    VocOk (encode v ws).1 ∧ v.inv <+: (encode v ws).1.inv ∧ Valid (encode v ws).1.inv (encode v ws).2 ∧
      decode (encode v ws).1.inv (encode v ws).2 = ws := by
  induction ws with
  | nil => intro v h; exact ⟨h, List.prefix_refl _, (by intro i hi; cases hi), rfl⟩
  | cons w ws ih =>
    intro v h
    obtain ⟨a1, a2, a3⟩ := encWord_ok v h w
    obtain ⟨b1, b2, b3, b4⟩ := ih _ a1
    have hlt : (encWord v w).2 < (encWord v w).1.inv.length := (List.getElem?_eq_some_iff.1 a3).1
    refine ⟨b1, a2.trans b2, ?_, ?_⟩
    · intro i hi
      rw [encode] at hi
      rcases List.mem_cons.1 hi with rfl | hi
      · exact Nat.lt_of_lt_of_le hlt b2.length_le
      · exact b3 i hi
    · rw [encode]
      simp only
      rw [decode_cons _ _ _ w (by rw [get_prefix b2 hlt, a3]), b4]

theorem decode_inj {inv : List Str} (h : inv.Nodup) : ∀ {a b : List Nat}, Valid inv a → Valid inv b → decode inv a = decode inv b → a = b := by
  intro a
  induction a with
  | nil =>
    intro b _ hb he
    cases b with
    | nil => rfl
    | cons j b =>
      rw [decode_cons inv j b _ (List.getElem?_eq_getElem (hb j List.mem_cons_self))] at he
      cases he
  | cons i a ih =>
    intro b ha hb he
    have hi := ha i List.mem_cons_self
    rw [decode_cons inv i a _ (List.getElem?_eq_getElem hi)] at he
    cases b with
    | nil => cases he
    | cons j b =>
      have hj := hb j List.mem_cons_self
      rw [decode_cons inv j b _ (List.getElem?_eq_getElem hj)] at he
      injection he with e1 e2
      rw [(List.getElem_inj (h₀ := hi) (h₁ := hj) h).1 e1,
        ih (fun x hx => ha x (List.mem_cons_of_mem _ hx)) (fun x hx => hb x (List.mem_cons_of_mem _ hx)) e2]

/-! ### Cells -/

def lkI (s : List Nat) : List Info → Option (Mat × Nat)
  | [] => none
  | x :: xs => if x.s = s then some (x.mat, x.count) else lkI s xs

def look (cells : List (List Nat × List Info)) (t s : List Nat) : Option (Mat × Nat) := (AMap.lk cells t).bind (lkI s)

def CellsOk (cells : List (List Nat × List Info)) : Prop :=
  AMap.Distinct cells ∧ ∀ c ∈ cells, (c.2.map Info.s).Nodup

theorem mem_of_lk {cells : List (List Nat × List Info)} {t : List Nat} {l : List Info} (h : AMap.lk cells t = some l) : (t, l) ∈ cells := by
  induction cells with
  | nil => cases h
  | cons c cs ih =>
    rw [AMap.lk] at h
    split at h
    · rename_i e
      injection h with h
      rw [← e, ← h]; exact List.mem_cons_self
    · exact List.mem_cons_of_mem _ (ih h)

theorem ins_perm (t : List Nat) (l : List Info) (cells : List (List Nat × List Info)) : (insCell t l cells).Perm ((t, l) :: cells) := by
  induction cells with
  | nil => exact List.Perm.refl _
  | cons c cs ih =>
    rw [insCell]
    split
    · exact List.Perm.refl _
    · exact (List.Perm.cons c ih).trans (List.Perm.swap _ _ _)

theorem lkI_none {s : List Nat} {l : List Info} : lkI s l = none ↔ s ∉ l.map Info.s := by
  induction l with
  | nil => simp [lkI]
  | cons x xs ih =>
    rw [lkI]
    by_cases h : x.s = s
    · rw [if_pos h]; simp [h]
    · rw [if_neg h, ih]; simp; intro _ hc; exact h hc.symm

theorem addInfo_lk (s : List Nat) (A : Mat) (l : List Info) (s' : List Nat) :
    lkI s' (addInfo s A l) = if s' = s then some (match lkI s l with | none => (A, 1) | some p => (p.1, p.2 + 1)) else lkI s' l := by
  induction l with
  | nil =>
    simp only [addInfo, lkI]
    by_cases h : s = s'
    · subst h; simp
    · rw [if_neg h, if_neg (fun hc => h hc.symm)]
  | cons x xs ih =>
    rw [addInfo]
    by_cases hx : x.s = s
    · rw [if_pos hx, lkI, lkI, lkI]
      simp only
      by_cases h : s' = s
      · subst h; simp [hx]
      · rw [if_neg h, if_neg (fun hc => h (hc.symm.trans hx)), if_neg (fun hc => h (hc.symm.trans hx))]
    · rw [if_neg hx, lkI, lkI, ih, lkI, if_neg hx]
      by_cases h : s' = s
      · subst h; rw [if_neg hx, if_pos rfl, if_pos rfl]
      · simp [h]

theorem addInfo_nodup (s : List Nat) (A : Mat) (l : List Info) (h : (l.map Info.s).Nodup) : ((addInfo s A l).map Info.s).Nodup := by
  induction l with
  | nil => simp [addInfo]
  | cons x xs ih =>
    rw [List.map_cons, List.nodup_cons] at h
    rw [addInfo]
    by_cases hx : x.s = s
    · rw [if_pos hx, List.map_cons, List.nodup_cons]; exact h
    · rw [if_neg hx, List.map_cons, List.nodup_cons]
      refine ⟨?_, ih h.2⟩
      intro hm
      have h1 : lkI x.s (addInfo s A xs) ≠ none := fun hc => lkI_none.1 hc hm
      rw [addInfo_lk, if_neg hx] at h1
      exact h1 (lkI_none.2 h.1)

theorem put_mem {cells : List (List Nat × List Info)} {t : List Nat} {l : List Info} {c : List Nat × List Info}
    (h : c ∈ AMap.put cells t l) : c = (t, l) ∨ c ∈ cells := by
  induction cells with
  | nil => rw [AMap.put, List.mem_singleton] at h; exact .inl h
  | cons x xs ih =>
    rw [AMap.put] at h
    split at h
    · rcases List.mem_cons.1 h with h | h
      · exact .inl h
      · exact .inr (List.mem_cons_of_mem _ h)
    · rcases List.mem_cons.1 h with h | h
      · exact .inr (h ▸ List.mem_cons_self)
      · rcases ih h with h | h
        · exact .inl h
        · exact .inr (List.mem_cons_of_mem _ h)

theorem addCell_ok (cells : List (List Nat × List Info)) (h : CellsOk cells) (t s : List Nat) (A : Mat) :
    CellsOk (addCell cells t s A) ∧ ∀ t' s', look (addCell cells t s A) t' s' =
      if t' = t ∧ s' = s then some (match look cells t s with | none => (A, 1) | some p => (p.1, p.2 + 1)) else look cells t' s' := by
  unfold addCell
  cases hl : AMap.lk cells t with
  | none =>
    have hp := ins_perm t [⟨s, A, 1⟩] cells
    have hd : AMap.Distinct ((t, [(⟨s, A, 1⟩ : Info)]) :: cells) := by
      refine List.nodup_cons.2 ⟨AMap.lk_none_iff.1 hl, h.1⟩
    have hd' : AMap.Distinct (insCell t [⟨s, A, 1⟩] cells) := (hp.map Prod.fst).nodup_iff.2 hd
    refine ⟨⟨hd', ?_⟩, ?_⟩
    · intro c hc
      rcases List.mem_cons.1 (hp.mem_iff.1 hc) with rfl | hc
      · simp
      · exact h.2 c hc
    · intro t' s'
      unfold look
      simp only
      rw [AMap.lk_eq_of_perm hp hd', AMap.lk, hl]
      by_cases ht : t = t'
      · subst ht
        simp only [if_true, Option.bind_some, true_and, hl, Option.bind_none, lkI]
        by_cases hs : s = s'
        · simp [hs]
        · rw [if_neg hs, if_neg (fun hc => hs hc.symm)]
      · rw [if_neg ht, if_neg (fun hc => ht hc.1.symm)]
  | some l =>
    have hm := mem_of_lk hl
    refine ⟨⟨AMap.distinct_put h.1 _ _, ?_⟩, ?_⟩
    · intro c hc
      rcases put_mem hc with rfl | hc
      · exact addInfo_nodup s A l (h.2 _ hm)
      · exact h.2 c hc
    · intro t' s'
      unfold look
      simp only
      rw [AMap.lk_put, hl]
      by_cases ht : t' = t
      · subst ht
        simp only [if_true, Option.bind_some, true_and, addInfo_lk, hl]
      · rw [if_neg ht, if_neg (fun hc => ht hc.1)]

theorem opInfos_eq (mf : Nat) (o : Opn) (s : List Nat) (B R : Mat) (l : List Info)
    (h : ∀ x ∈ l, x.s = s → applyOpn mf o x.mat B = some R) :
    opInfos mf o s B l = some (l.map fun x => if x.s = s then { x with mat := R } else x) := by
  induction l with
  | nil => rfl
  | cons x xs ih =>
    rw [opInfos, ih (fun y hy => h y (List.mem_cons_of_mem _ hy))]
    by_cases hx : x.s = s
    · rw [if_pos hx.symm, h x List.mem_cons_self hx]
      simp [hx]
    · rw [if_neg (fun hc => hx hc.symm)]
      simp [hx]

theorem map_lk (s : List Nat) (R : Mat) (l : List Info) (s' : List Nat) :
    lkI s' (l.map fun x => if x.s = s then { x with mat := R } else x) =
      if s' = s then (lkI s l).map fun p => (R, p.2) else lkI s' l := by
  induction l with
  | nil => rw [List.map_nil, lkI]; split <;> rfl
  | cons x xs ih =>
    rw [List.map_cons, lkI]
    by_cases hx : x.s = s
    · rw [if_pos hx]
      simp only
      rw [lkI, lkI, if_pos hx]
      by_cases h : s' = s
      · subst h; simp [hx]
      · rw [if_neg h, if_neg (fun hc => h (hc.symm.trans hx)), ih, if_neg h, if_neg (fun hc => h (hc.symm.trans hx))]
    · rw [if_neg hx, lkI, lkI, if_neg hx, ih]
      by_cases h : s' = s
      · subst h; simp [hx]
      · simp [h]

/-! ### The container as a map on sentence pairs -/

/-- The container holds the map `M` from sentence pairs to matrices and counts. -/
structure Holds (c : Cont) (M : Sent × Sent → Option (Mat × Nat)) : Prop where
  tv : VocOk c.tv
  sv : VocOk c.sv
  cells : CellsOk c.cells
  valid : ∀ t s p, look c.cells t s = some p → Valid c.tv.inv t ∧ Valid c.sv.inv s
  eq : ∀ t s, Valid c.tv.inv t → Valid c.sv.inv s → look c.cells t s = M (decode c.sv.inv s, decode c.tv.inv t)
  surj : ∀ p, M p ≠ none → ∃ t s, Valid c.tv.inv t ∧ Valid c.sv.inv s ∧ p = (decode c.sv.inv s, decode c.tv.inv t)

theorem holds_empty : Holds Cont.empty (fun _ => none) where
  tv := ⟨List.nodup_nil, rfl, by intro w i; simp [Cont.empty, AMap.lk]⟩
  sv := ⟨List.nodup_nil, rfl, by intro w i; simp [Cont.empty, AMap.lk]⟩
  cells := ⟨AMap.distinct_nil, by simp [Cont.empty]⟩
  valid := by intro t s p h; simp [look, Cont.empty, AMap.lk] at h
  eq := by intro t s _ _; simp [look, Cont.empty, AMap.lk]
  surj := by intro p h; exact absurd rfl h

/-- The vocabularies may grow. -/
theorem holds_grow {c : Cont} {M : Sent × Sent → Option (Mat × Nat)} (h : Holds c M) (tv' sv' : Voc) (ht : VocOk tv') (hs : VocOk sv')
    (pt : c.tv.inv <+: tv'.inv) (ps : c.sv.inv <+: sv'.inv) : Holds ⟨tv', sv', c.cells⟩ M where
  tv := ht
  sv := hs
  cells := h.cells
  valid := fun t s p hp => ⟨valid_prefix pt (h.valid t s p hp).1, valid_prefix ps (h.valid t s p hp).2⟩
  eq := by
    intro t s vt vs
    simp only at vt vs ⊢
    by_cases hv : Valid c.tv.inv t ∧ Valid c.sv.inv s
    · rw [decode_prefix pt hv.1, decode_prefix ps hv.2]
      exact h.eq t s hv.1 hv.2
    · have h1 : look c.cells t s = none := by
        cases hl : look c.cells t s with
        | none => rfl
        | some p => exact absurd (h.valid t s p hl) hv
      rw [h1]
      cases hm : M (decode sv'.inv s, decode tv'.inv t) with
      | none => rfl
      | some q =>
        exfalso
        obtain ⟨t0, s0, v1, v2, e⟩ := h.surj _ (by rw [hm]; simp)
        injection e with e1 e2
        rw [← decode_prefix pt v1] at e2
        rw [← decode_prefix ps v2] at e1
        have := decode_inj ht.1 vt (valid_prefix pt v1) e2
        have := decode_inj hs.1 vs (valid_prefix ps v2) e1
        subst_vars
        exact hv ⟨v1, v2⟩
  surj := by
    intro p hp
    obtain ⟨t, s, v1, v2, e⟩ := h.surj p hp
    exact ⟨t, s, valid_prefix pt v1, valid_prefix ps v2, by simp only; rw [decode_prefix pt v1, decode_prefix ps v2]; exact e⟩

/-- The map changes at one sentence pair. -/
theorem holds_set {c : Cont} {M : Sent × Sent → Option (Mat × Nat)} (h : Holds c M) (cells' : List (List Nat × List Info))
    (hc : CellsOk cells') (t s : List Nat) (vt : Valid c.tv.inv t) (vs : Valid c.sv.inv s) (v : Option (Mat × Nat))
    (hl : ∀ t' s', look cells' t' s' = if t' = t ∧ s' = s then v else look c.cells t' s') :
    Holds ⟨c.tv, c.sv, cells'⟩ (fun p => if p = (decode c.sv.inv s, decode c.tv.inv t) then v else M p) where
  tv := h.tv
  sv := h.sv
  cells := hc
  valid := by
    intro t' s' p hp
    simp only at hp
    rw [hl] at hp
    split at hp
    · rename_i e; rw [e.1, e.2]; exact ⟨vt, vs⟩
    · exact h.valid t' s' p hp
  eq := by
    intro t' s' vt' vs'
    simp only at vt' vs' ⊢
    rw [hl]
    by_cases e : t' = t ∧ s' = s
    · rw [if_pos e, e.1, e.2, if_pos rfl]
    · rw [if_neg e, if_neg, h.eq t' s' vt' vs']
      intro e'
      injection e' with e1 e2
      exact e ⟨decode_inj h.tv.1 vt' vt e2, decode_inj h.sv.1 vs' vs e1⟩
  surj := by
    intro p hp
    simp only at hp ⊢
    split at hp
    · rename_i e; exact ⟨t, s, vt, vs, e⟩
    · exact h.surj p hp

theorem holds_add {c : Cont} {M : Sent × Sent → Option (Mat × Nat)} (h : Holds c M) (x : Ext) :
    Holds (addEntry c x) (fun p => if p = (x.ns, x.t) then
      some (match M (x.ns, x.t) with | none => (x.mat, 1) | some q => (q.1, q.2 + 1)) else M p) := by
  obtain ⟨a1, a2, a3, a4⟩ := encode_ok x.t c.tv h.tv
  obtain ⟨b1, b2, b3, b4⟩ := encode_ok x.ns c.sv h.sv
  have hg := holds_grow h _ _ a1 b1 a2 b2
  obtain ⟨d1, d2⟩ := addCell_ok c.cells h.cells (encode c.tv x.t).2 (encode c.sv x.ns).2 x.mat
  have := holds_set hg _ d1 _ _ a3 b3 _ d2
  simp only [a4, b4] at this
  have he := hg.eq _ _ a3 b3
  simp only [a4, b4] at he
  rw [he] at this
  exact this

theorem holds_op {c : Cont} {M : Sent × Sent → Option (Mat × Nat)} (h : Holds c M) (o : Opn) (x : Ext)
    (hd : ∀ A n, M (x.ns, x.t) = some (A, n) → A.I = x.mat.I ∧ A.J = x.mat.J) :
    ∃ N R c', (∀ mf, N ≤ mf → opEntry mf o c x = some c') ∧ (∀ A n, M (x.ns, x.t) = some (A, n) → OpMeaning o A x.mat R) ∧
      Holds c' (fun p => if p = (x.ns, x.t) then (M p).map (fun q => (R, q.2)) else M p) := by
  obtain ⟨a1, a2, a3, a4⟩ := encode_ok x.t c.tv h.tv
  obtain ⟨b1, b2, b3, b4⟩ := encode_ok x.ns c.sv h.sv
  have hg := holds_grow h _ _ a1 b1 a2 b2
  have he := hg.eq _ _ a3 b3
  simp only [a4, b4] at he
  cases hl : AMap.lk c.cells (encode c.tv x.t).2 with
  | none =>
    have hn : M (x.ns, x.t) = none := by rw [← he]; unfold look; rw [hl]; rfl
    refine ⟨0, WordAlig.empty, ⟨(encode c.tv x.t).1, c.sv, c.cells⟩, ?_, ?_, ?_⟩
    · intro mf _; unfold opEntry; rw [hl]
    · intro A n hA; rw [hn] at hA; cases hA
    · have := holds_grow h _ c.sv a1 h.sv a2 (List.prefix_refl _)
      have e : (fun p => if p = (x.ns, x.t) then (M p).map (fun q => (WordAlig.empty, q.2)) else M p) = M := by
        funext p
        split
        · rename_i e; rw [e, hn]; rfl
        · rfl
      rw [e]; exact this
  | some l =>
    have hnd := h.cells.2 _ (mem_of_lk hl)
    have hlk : lkI (encode c.sv x.ns).2 l = M (x.ns, x.t) := by
      rw [← he]; unfold look; rw [hl]; rfl
    have hmem : ∀ y ∈ l, y.s = (encode c.sv x.ns).2 → M (x.ns, x.t) = some (y.mat, y.count) := by
      intro y hy hs
      rw [← hlk]
      clear hlk hl he
      induction l with
      | nil => cases hy
      | cons z zs ih =>
        rw [List.map_cons, List.nodup_cons] at hnd
        rw [lkI]
        rcases List.mem_cons.1 hy with rfl | hy
        · rw [if_pos hs]
        · rw [if_neg, ih hnd.2 hy]
          intro hz
          exact hnd.1 (hz.trans hs.symm ▸ List.mem_map_of_mem hy)
    have hex : ∃ N R, (∀ mf, N ≤ mf → ∀ y ∈ l, y.s = (encode c.sv x.ns).2 → applyOpn mf o y.mat x.mat = some R) ∧
        ∀ A n, M (x.ns, x.t) = some (A, n) → OpMeaning o A x.mat R := by
      cases hM : M (x.ns, x.t) with
      | none =>
        refine ⟨0, WordAlig.empty, ?_, ?_⟩
        · intro mf _ y hy hs
          have := hmem y hy hs
          rw [hM] at this; cases this
        · intro A n hA; cases hA
      | some q =>
        obtain ⟨d1, d2⟩ := hd q.1 q.2 hM
        obtain ⟨N, R, h1, h2⟩ := apply_meaning o q.1 x.mat d1 d2
        refine ⟨N, R, ?_, ?_⟩
        · intro mf hm y hy hs
          have := hmem y hy hs
          rw [hM] at this
          injection this with this
          rw [← h1 mf hm, this]
        · intro A n hA
          injection hA with hA
          rw [hA] at h2; exact h2
    obtain ⟨N, R, h1, h2⟩ := hex
    refine ⟨N, R, ⟨(encode c.tv x.t).1, (encode c.sv x.ns).1, AMap.put c.cells (encode c.tv x.t).2
      (l.map fun y => if y.s = (encode c.sv x.ns).2 then { y with mat := R } else y)⟩, ?_, h2, ?_⟩
    · intro mf hm
      unfold opEntry
      rw [hl]
      simp only
      rw [opInfos_eq mf o _ x.mat R l (h1 mf hm)]
    · have := holds_set hg (AMap.put c.cells (encode c.tv x.t).2
        (l.map fun y => if y.s = (encode c.sv x.ns).2 then { y with mat := R } else y)) ⟨AMap.distinct_put h.cells.1 _ _, (by
          intro z hz
          rcases put_mem hz with rfl | hz
          · simp only [List.map_map]
            have e : (Info.s ∘ fun y => if y.s = (encode c.sv x.ns).2 then { y with mat := R } else y) = Info.s := by
              funext y; simp only [Function.comp]; split <;> rfl
            rw [e]; exact hnd
          · exact h.cells.2 z hz)⟩ (encode c.tv x.t).2 (encode c.sv x.ns).2 a3 b3 ((M (x.ns, x.t)).map fun q => (R, q.2)) (by
          intro t' s'
          unfold look
          simp only
          rw [AMap.lk_put]
          by_cases ht : t' = (encode c.tv x.t).2
          · rw [if_pos ht, ht]
            simp only [Option.bind_some, true_and]
            rw [map_lk, hlk, hl]; rfl
          · rw [if_neg ht, if_neg (fun hc => ht hc.1)])
      simp only [a4, b4] at this
      have e : (fun p => if p = (x.ns, x.t) then (M (x.ns, x.t)).map (fun q => (R, q.2)) else M p) =
          (fun p => if p = (x.ns, x.t) then (M p).map (fun q => (R, q.2)) else M p) := by
        funext p
        split
        · rename_i e; rw [e]
        · rfl
      rw [← e]; exact this

end Thot.AligFile
