import Verif.LangModel.Model
import Verif.TrieVecs.Props
/-! Helper lemmas for the language model (not part of the claims). -/
namespace Thot.LangModel

open Thot

/-! ### Sums -/

def sumBy {A : Type} (f : A → Rat) (l : List A) : Rat := (l.map f).sum

theorem sumBy_nil {A : Type} (f : A → Rat) : sumBy f [] = 0 := rfl

theorem sumBy_cons {A : Type} (f : A → Rat) (a : A) (l : List A) : sumBy f (a :: l) = f a + sumBy f l := by
  simp [sumBy]

theorem sumBy_congr {A : Type} {f g : A → Rat} {l : List A} (h : ∀ a ∈ l, f a = g a) : sumBy f l = sumBy g l := by
  induction l with
  | nil => rfl
  | cons a l ih =>
    rw [sumBy_cons, sumBy_cons, h a List.mem_cons_self, ih (fun x hx => h x (List.mem_cons_of_mem _ hx))]

theorem sumBy_add {A : Type} (f g : A → Rat) (l : List A) : sumBy (fun a => f a + g a) l = sumBy f l + sumBy g l := by
  induction l with
  | nil => simp only [sumBy_nil]; grind
  | cons a l ih => rw [sumBy_cons, sumBy_cons, sumBy_cons, ih]; grind

theorem sumBy_mul {A : Type} (k : Rat) (f : A → Rat) (l : List A) : sumBy (fun a => k * f a) l = k * sumBy f l := by
  induction l with
  | nil => simp [sumBy_nil]
  | cons a l ih => rw [sumBy_cons, sumBy_cons, ih]; grind

theorem sumBy_zero {A : Type} {f : A → Rat} {l : List A} (h : ∀ a ∈ l, f a = 0) : sumBy f l = 0 := by
  induction l with
  | nil => rfl
  | cons a l ih =>
    rw [sumBy_cons, h a List.mem_cons_self, ih (fun x hx => h x (List.mem_cons_of_mem _ hx))]; grind

theorem sumBy_const {A : Type} (k : Rat) (l : List A) : sumBy (fun _ => k) l = (l.length : Rat) * k := by
  induction l with
  | nil => simp [sumBy_nil]
  | cons a l ih => rw [sumBy_cons, ih]; simp only [List.length_cons]; grind

theorem sumBy_single {A : Type} [DecidableEq A] (a : A) (c : Rat) {l : List A} (hn : l.Nodup) :
    sumBy (fun x => if x = a then c else 0) l = if a ∈ l then c else 0 := by
  induction l with
  | nil => simp [sumBy_nil]
  | cons b l ih =>
    obtain ⟨h1, h2⟩ := List.nodup_cons.1 hn
    rw [sumBy_cons, ih h2]
    by_cases hb : b = a
    · subst hb; simp [h1]; grind
    · have : ¬ a = b := fun h => hb h.symm
      simp only [hb, if_false, List.mem_cons, this, false_or]; grind

theorem sumBy_nonneg {A : Type} {f : A → Rat} {l : List A} (h : ∀ a ∈ l, 0 ≤ f a) : 0 ≤ sumBy f l := by
  induction l with
  | nil => exact Rat.le_refl
  | cons a l ih =>
    rw [sumBy_cons]
    have h1 := h a List.mem_cons_self
    have h2 := ih (fun x hx => h x (List.mem_cons_of_mem _ hx))
    grind

theorem sumBy_le {A : Type} {f g : A → Rat} {l : List A} (h : ∀ a ∈ l, f a ≤ g a) : sumBy f l ≤ sumBy g l := by
  induction l with
  | nil => exact Rat.le_refl
  | cons a l ih =>
    rw [sumBy_cons, sumBy_cons]
    have h1 := h a List.mem_cons_self
    have h2 := ih (fun x hx => h x (List.mem_cons_of_mem _ hx))
    grind

theorem sumBy_map {A B : Type} (f : B → Rat) (g : A → B) (l : List A) : sumBy f (l.map g) = sumBy (fun a => f (g a)) l := by
  induction l with
  | nil => rfl
  | cons a l ih => rw [List.map_cons, sumBy_cons, sumBy_cons, ih]

theorem le_sumBy {A : Type} {f : A → Rat} {l : List A} (h : ∀ a ∈ l, 0 ≤ f a) {a : A} (ha : a ∈ l) : f a ≤ sumBy f l := by
  induction l with
  | nil => cases ha
  | cons b l ih =>
    rw [sumBy_cons]
    have h1 := h b List.mem_cons_self
    have h2 := sumBy_nonneg (fun x hx => h x (List.mem_cons_of_mem b hx))
    rcases List.mem_cons.1 ha with rfl | ha
    · grind
    · have h3 := ih (fun x hx => h x (List.mem_cons_of_mem _ hx)) ha
      grind

/-! ### Encoder -/

/-- Words and codes correspond to each other, and no code is larger than the last one given. -/
structure EncOk (e : Enc) : Prop where
  dist : AMap.Distinct e.w2c
  iff : ∀ w c, AMap.lk e.w2c w = some c ↔ AMap.lk e.c2w c = some w
  le : ∀ w c, AMap.lk e.w2c w = some c → c ≤ e.last

theorem encOk_empty : EncOk Enc.empty := by
  refine ⟨by simp [AMap.Distinct, Enc.empty], ?_, ?_⟩ <;> intro w c <;> simp [Enc.empty, AMap.lk]

/-- Giving a fresh code to a new word. -/
theorem encOk_addCode {e : Enc} (h : EncOk e) {w : Word} {c : Nat} (hw : AMap.lk e.w2c w = none) (hc : e.last < c) :
    EncOk { (e.addCode w c) with last := c } := by
  have hcn : AMap.lk e.c2w c = none := by
    cases hh : AMap.lk e.c2w c with
    | none => rfl
    | some w' => exact absurd (h.le _ _ ((h.iff _ _).2 hh)) (by omega)
  refine ⟨AMap.distinct_put h.dist _ _, ?_, ?_⟩
  · intro w' c'
    simp only [Enc.addCode, AMap.lk_put]
    by_cases h1 : w' = w
    · subst h1
      simp only [if_true, Option.some.injEq]
      constructor
      · intro hh; subst hh; simp
      · intro hh
        by_cases h2 : c' = c
        · exact h2.symm
        · rw [if_neg h2] at hh
          rw [(h.iff _ _).2 hh] at hw; cases hw
    · simp only [h1, if_false]
      by_cases h2 : c' = c
      · subst h2
        simp only [if_true, Option.some.injEq]
        constructor
        · intro hh; exact absurd (h.le _ _ hh) (by omega)
        · intro hh; exact absurd hh.symm h1
      · simp only [h2, if_false]; exact h.iff _ _
  · intro w' c'
    simp only [Enc.addCode, AMap.lk_put]
    split
    · intro hh; injection hh with hh; omega
    · intro hh; have := h.le _ _ hh; omega

theorem encOk_lm : EncOk Enc.lm := by
  have h0 := encOk_empty
  have h1 : EncOk ⟨[(unkStr, 0)], [(0, unkStr)], 0⟩ := by
    refine ⟨by simp [AMap.Distinct], ?_, ?_⟩ <;> intro w c <;> simp [AMap.lk]
    · grind
    · intros; omega
  have h2 := encOk_addCode h1 (w := bosStr) (c := 1) (by decide) (by decide)
  have h3 := encOk_addCode h2 (w := eosStr) (c := 2) (by decide) (by decide)
  exact encOk_addCode h3 (w := spStr) (c := 3) (by decide) (by decide)

theorem code_some {e : Enc} {w : Word} {c : Nat} (h : AMap.lk e.w2c w = some c) : e.code w = (true, c) := by
  unfold Enc.code; rw [h]

theorem code_none {e : Enc} {w : Word} (h : AMap.lk e.w2c w = none) : e.code w = (false, unkSymbol) := by
  unfold Enc.code; rw [h]

theorem code_true {e : Enc} {w : Word} : (e.code w).1 = true ↔ ∃ c, AMap.lk e.w2c w = some c := by
  unfold Enc.code
  cases AMap.lk e.w2c w <;> simp

theorem lk_of_code {e : Enc} {w : Word} (h : (e.code w).1 = true) : AMap.lk e.w2c w = some (e.code w).2 := by
  obtain ⟨c, hc⟩ := code_true.1 h
  rw [code_some hc]; exact hc

theorem addSym_known {e : Enc} {w : Word} (h : (e.code w).1 = true) : e.addSym w = e := by
  unfold Enc.addSym; rw [if_pos h]

theorem addSym_new {e : Enc} {w : Word} (h : AMap.lk e.w2c w = none) :
    e.addSym w = { (e.addCode w (e.last + 1)) with last := e.last + 1 } := by
  unfold Enc.addSym
  rw [code_none h]
  simp only [Bool.false_eq_true, if_false, Enc.gen, h]
  rfl

/-- All words keep their codes, codes given later are larger. -/
structure Ext (e e' : Enc) : Prop where
  keep : ∀ w c, AMap.lk e.w2c w = some c → AMap.lk e'.w2c w = some c
  new : ∀ w c, AMap.lk e'.w2c w = some c → AMap.lk e.w2c w = some c ∨ e.last < c
  mono : e.last ≤ e'.last

theorem Ext.refl (e : Enc) : Ext e e := ⟨fun _ _ h => h, fun _ _ h => Or.inl h, Nat.le_refl _⟩

theorem Ext.trans {a b c : Enc} (h : Ext a b) (g : Ext b c) : Ext a c := by
  refine ⟨fun w x hx => g.keep _ _ (h.keep _ _ hx), ?_, Nat.le_trans h.mono g.mono⟩
  intro w x hx
  rcases g.new _ _ hx with h1 | h1
  · exact h.new _ _ h1
  · exact Or.inr (Nat.lt_of_le_of_lt h.mono h1)

theorem addSym_spec {e : Enc} (h : EncOk e) (w : Word) :
    EncOk (e.addSym w) ∧ Ext e (e.addSym w) ∧ ((e.addSym w).code w).1 = true ∧
      ∀ x, ((e.addSym w).code x).1 = true ↔ (e.code x).1 = true ∨ x = w := by
  cases hw : AMap.lk e.w2c w with
  | some c =>
    have hk : (e.code w).1 = true := code_true.2 ⟨c, hw⟩
    rw [addSym_known hk]
    refine ⟨h, Ext.refl e, hk, fun x => ⟨Or.inl, ?_⟩⟩
    rintro (hx | rfl)
    · exact hx
    · exact hk
  | none =>
    rw [addSym_new hw]
    have hl : ∀ x, AMap.lk (AMap.put e.w2c w (e.last + 1)) x = if x = w then some (e.last + 1) else AMap.lk e.w2c x :=
      fun x => AMap.lk_put _ _ _ _
    refine ⟨encOk_addCode h hw (by omega), ⟨?_, ?_, by simp⟩, ?_, ?_⟩
    · intro x c hx
      simp only [Enc.addCode, hl]
      rw [if_neg]
      · exact hx
      · intro hh; subst hh; rw [hw] at hx; cases hx
    · intro x c
      simp only [Enc.addCode, hl]
      split
      · intro hh; injection hh with hh; exact Or.inr (by omega)
      · exact Or.inl
    · rw [code_true]; exact ⟨e.last + 1, by simp only [Enc.addCode, hl, if_true]⟩
    · intro x
      rw [code_true, code_true]
      simp only [Enc.addCode, hl]
      by_cases hx : x = w
      · simp [hx]
      · simp [hx]

theorem foldl_addSymbol (m : LM) (ws : List Word) :
    m.addSymbols ws = { m with enc := ws.foldl Enc.addSym m.enc } := by
  unfold LM.addSymbols
  induction ws generalizing m with
  | nil => rfl
  | cons w ws ih => rw [List.foldl_cons, ih]; rfl

theorem addSyms_spec {e : Enc} (h : EncOk e) (ws : List Word) :
    EncOk (ws.foldl Enc.addSym e) ∧ Ext e (ws.foldl Enc.addSym e) ∧
      ∀ x, ((ws.foldl Enc.addSym e).code x).1 = true ↔ (e.code x).1 = true ∨ x ∈ ws := by
  induction ws generalizing e with
  | nil => exact ⟨h, Ext.refl e, by simp⟩
  | cons w ws ih =>
    obtain ⟨h1, h2, _, h4⟩ := addSym_spec h w
    obtain ⟨g1, g2, g3⟩ := ih h1
    refine ⟨g1, h2.trans g2, ?_⟩
    intro x
    rw [List.foldl_cons, g3, h4, List.mem_cons, or_assoc]

theorem codes_fst {e : Enc} {h : List Word} : (e.codes h).1 = true ↔ ∀ w ∈ h, (e.code w).1 = true := by
  simp [Enc.codes, List.all_eq_true]

theorem code_inj {e : Enc} (ok : EncOk e) {a b : Word} (ha : (e.code a).1 = true) (hb : (e.code b).1 = true)
    (h : (e.code a).2 = (e.code b).2) : a = b := by
  have h1 := (ok.iff _ _).1 (lk_of_code ha)
  have h2 := (ok.iff _ _).1 (lk_of_code hb)
  rw [h] at h1
  rw [h1] at h2
  injection h2

theorem codes_inj {e : Enc} (ok : EncOk e) {a b : List Word} (ha : (e.codes a).1 = true) (hb : (e.codes b).1 = true)
    (h : (e.codes a).2 = (e.codes b).2) : a = b := by
  rw [codes_fst] at ha hb
  unfold Enc.codes at h
  simp only at h
  induction a generalizing b with
  | nil => cases b with
    | nil => rfl
    | cons y b => simp at h
  | cons x a ih => cases b with
    | nil => simp at h
    | cons y b =>
      simp only [List.map_cons, List.cons.injEq] at h
      rw [code_inj ok (ha x List.mem_cons_self) (hb y List.mem_cons_self) h.1,
        ih (fun w hw => ha w (List.mem_cons_of_mem _ hw)) (fun w hw => hb w (List.mem_cons_of_mem _ hw)) h.2]

theorem code_ext {e e' : Enc} (h : Ext e e') {w : Word} (hw : (e.code w).1 = true) : e'.code w = e.code w := by
  have := h.keep _ _ (lk_of_code hw)
  rw [code_some this, code_some (lk_of_code hw)]

theorem codes_ext {e e' : Enc} (h : Ext e e') {ws : List Word} (hw : (e.codes ws).1 = true) : e'.codes ws = e.codes ws := by
  have hw' := codes_fst.1 hw
  have h1 : (e'.codes ws).1 = true := codes_fst.2 (fun w hm => by rw [code_ext h (hw' w hm)]; exact hw' w hm)
  have h2 : (e'.codes ws).2 = (e.codes ws).2 := by
    unfold Enc.codes
    simp only
    refine List.map_congr_left ?_
    intro w hm; rw [code_ext h (hw' w hm)]
  exact Prod.ext (by rw [h1, hw]) h2

/-! ### Table -/

/-- Count stored for a sequence. -/
def val (t : TrieVecs.T Rat) (x : List Nat) : Rat := (TrieVecs.find t x).getD 0

theorem val_nil (x : List Nat) : val .nil x = 0 := by unfold val; rw [TrieVecs.find_nil]; rfl

theorem val_insert {t : TrieVecs.T Rat} (h : TrieVecs.WF t) (c : Rat) {ks : List Nat} (hk : ks ≠ []) (x : List Nat) :
    val (TrieVecs.insert 0 c t ks) x = if x = ks then c else val t x := by
  unfold val
  by_cases hx : x = []
  · subst hx
    have : ¬ [] = ks := fun hh => hk hh.symm
    rw [TrieVecs.find_empty, TrieVecs.find_empty, if_neg this]
  · rw [TrieVecs.find_insert 0 c h ks x hx]
    split
    · rfl
    · cases TrieVecs.find t x with
      | some v => rfl
      | none => simp only [Option.getD_none]; split <;> rfl

theorem val_bump {t : TrieVecs.T Rat} (h : TrieVecs.WF t) (c : Rat) {ks : List Nat} (hk : ks ≠ []) (x : List Nat) :
    val (bump t ks c) x = val t x + if x = ks then c else 0 := by
  unfold bump
  cases hf : TrieVecs.find t ks with
  | none =>
    rw [val_insert h _ hk]
    split
    · rename_i hx; subst hx; unfold val; rw [hf]; simp
    · grind
  | some v =>
    unfold val
    rw [TrieVecs.find_modify]
    split
    · rename_i hx; subst hx; rw [hf]; simp
    · grind

theorem wf_bump {t : TrieVecs.T Rat} (h : TrieVecs.WF t) (c : Rat) (ks : List Nat) : TrieVecs.WF (bump t ks c) := by
  unfold bump
  cases TrieVecs.find t ks with
  | none => exact TrieVecs.wf_insert _ _ h _
  | some v => exact TrieVecs.wf_modify _ h _

theorem cSrcTrg_val (tb : Table) (s : List Nat) (t : Nat) : tb.cSrcTrg s t = val tb.st (s ++ [t]) := by
  unfold Table.cSrcTrg val
  cases TrieVecs.find tb.st (s ++ [t]) <;> rfl

theorem cSrc_val (tb : Table) (s : List Nat) : tb.cSrc s = if s = [] then tb.s0 else val tb.s s := by
  unfold Table.cSrc val
  split
  · rfl
  · cases TrieVecs.find tb.s s <;> rfl

theorem p_eq (tb : Table) (s : List Nat) (t : Nat) :
    tb.p s t = if tb.cSrc s = 0 then 0 else tb.cSrcTrg s t / tb.cSrc s := by
  unfold Table.p Table.cSrcTrg
  cases TrieVecs.find tb.st (s ++ [t]) with
  | none =>
    dsimp only
    split
    · rfl
    · rw [Rat.div_def, Rat.zero_mul]
  | some v => rfl

/-- The tries of a table are sorted. -/
def TblOk (tb : Table) : Prop := TrieVecs.WF tb.st ∧ TrieVecs.WF tb.s

theorem tblOk_empty : TblOk Table.empty := ⟨trivial, trivial⟩

theorem tblOk_incr {tb : Table} (h : TblOk tb) (s : List Nat) (t : Nat) (c : Rat) : TblOk (tb.incr s t c) := by
  unfold Table.incr
  dsimp only
  split
  · exact ⟨wf_bump h.1 _ _, wf_bump h.2 _ _⟩
  · exact ⟨wf_bump h.1 _ _, h.2⟩

theorem cSrcTrg_incr {tb : Table} (h : TblOk tb) (s : List Nat) (t : Nat) (c : Rat) (s' : List Nat) (t' : Nat) :
    (tb.incr s t c).cSrcTrg s' t' = tb.cSrcTrg s' t' + if s' = s ∧ t' = t then c else 0 := by
  rw [cSrcTrg_val, cSrcTrg_val]
  have : (tb.incr s t c).st = bump tb.st (s ++ [t]) c := by unfold Table.incr; dsimp only; split <;> rfl
  rw [this, val_bump h.1 _ (by simp)]
  congr 1
  have e : (s' ++ [t'] = s ++ [t]) ↔ (s' = s ∧ t' = t) := by simp
  simp only [e]

theorem cSrc_incr {tb : Table} (h : TblOk tb) (s : List Nat) (t : Nat) (c : Rat) (s' : List Nat) :
    (tb.incr s t c).cSrc s' = tb.cSrc s' + if s' = s then c else 0 := by
  rw [cSrc_val, cSrc_val]
  unfold Table.incr
  dsimp only
  by_cases hs : s = []
  · subst hs
    simp only [ne_eq, not_true_eq_false, if_false]
    split
    · rfl
    · grind
  · simp only [ne_eq, hs, not_false_eq_true, if_true]
    rw [val_bump h.2 _ hs]
    split
    · rename_i h2; subst h2
      have : ¬ [] = s := fun hh => hs hh.symm
      rw [if_neg this]; grind
    · rfl

/-! ### Model -/

/-- The state of a model used through its functions on words. -/
structure Ok (m : LM) : Prop where
  enc : EncOk m.enc
  tbl : TblOk m.tbl
  suppST : ∀ s t, m.tbl.cSrcTrg s t ≠ 0 → ∀ x ∈ t :: s, ∃ w, AMap.lk m.enc.w2c w = some x
  suppS : ∀ s, m.tbl.cSrc s ≠ 0 → ∀ x ∈ s, ∃ w, AMap.lk m.enc.w2c w = some x

theorem ok_new : Ok LM.new := by
  refine ⟨encOk_lm, tblOk_empty, ?_, ?_⟩
  · intro s t h
    rw [cSrcTrg_val] at h
    exact absurd (val_nil _) h
  · intro s h
    rw [cSrc_val] at h
    split at h
    · exact absurd rfl h
    · exact absurd (val_nil _) h

theorem index_known {m : LM} {w : Word} (h : (m.enc.code w).1 = true) : m.index w = (m.enc.code w).2 := by
  unfold LM.index; rw [if_pos h]

theorem ok_addSymbols {m : LM} (h : Ok m) (ws : List Word) : Ok (m.addSymbols ws) := by
  rw [foldl_addSymbol]
  obtain ⟨h1, h2, _⟩ := addSyms_spec h.enc ws
  refine ⟨h1, h.tbl, ?_, ?_⟩
  · intro s t hn x hx
    obtain ⟨w, hw⟩ := h.suppST s t hn x hx
    exact ⟨w, h2.keep _ _ hw⟩
  · intro s hn x hx
    obtain ⟨w, hw⟩ := h.suppS s hn x hx
    exact ⟨w, h2.keep _ _ hw⟩

/-- A word whose code supports a count was already known. -/
theorem known_of_code {e e' : Enc} (ok : EncOk e) (hx : Ext e e') {w v : Word} {c : Nat}
    (h' : AMap.lk e'.w2c w = some c) (h : AMap.lk e.w2c v = some c) : AMap.lk e.w2c w = some c := by
  rcases hx.new _ _ h' with h1 | h1
  · exact h1
  · exact absurd (ok.le _ _ h) (by omega)

theorem cNgramStr_addSymbols {m : LM} (h : Ok m) (ws : List Word) (w : Word) (hs : List Word) :
    (m.addSymbols ws).cNgramStr w hs = m.cNgramStr w hs := by
  rw [foldl_addSymbol]
  obtain ⟨h1, h2, h3⟩ := addSyms_spec h.enc ws
  unfold LM.cNgramStr
  dsimp only
  by_cases hh : (m.enc.codes hs).1 = true ∧ (m.enc.code w).1 = true
  · rw [codes_ext h2 hh.1, code_ext h2 hh.2]
  · have hr : (if (m.enc.codes hs).1 = true then
        if (m.enc.code w).1 = true then m.tbl.cSrcTrg (m.enc.codes hs).2 (m.enc.code w).2 else 0 else 0) = 0 := by
      grind
    rw [hr]
    split
    · rename_i a1
      split
      · rename_i a2
        apply Classical.byContradiction
        intro hne
        apply hh
        have hs' := h.suppST _ _ hne
        refine ⟨codes_fst.2 ?_, ?_⟩
        · intro x hx
          have hk := lk_of_code (codes_fst.1 a1 x hx)
          obtain ⟨v, hv⟩ := hs' _ (List.mem_cons_of_mem _ (List.mem_map.2 ⟨x, hx, rfl⟩))
          exact code_true.2 ⟨_, known_of_code h.enc h2 hk hv⟩
        · obtain ⟨v, hv⟩ := hs' _ List.mem_cons_self
          exact code_true.2 ⟨_, known_of_code h.enc h2 (lk_of_code a2) hv⟩
      · rfl
    · rfl

theorem cHistStr_addSymbols {m : LM} (h : Ok m) (ws : List Word) (hs : List Word) :
    (m.addSymbols ws).cHistStr hs = m.cHistStr hs := by
  rw [foldl_addSymbol]
  obtain ⟨h1, h2, h3⟩ := addSyms_spec h.enc ws
  unfold LM.cHistStr
  dsimp only
  by_cases hh : (m.enc.codes hs).1 = true
  · rw [codes_ext h2 hh]
  · rw [if_neg hh]
    split
    · rename_i a1
      apply Classical.byContradiction
      intro hne
      apply hh
      have hs' := h.suppS _ hne
      refine codes_fst.2 ?_
      intro x hx
      have hk := lk_of_code (codes_fst.1 a1 x hx)
      obtain ⟨v, hv⟩ := hs' _ (List.mem_map.2 ⟨x, hx, rfl⟩)
      exact code_true.2 ⟨_, known_of_code h.enc h2 hk hv⟩
    · rfl

/-- `incrCountsOfNgramStr` in terms of the codes. -/
theorem incrStr_eq (m : LM) (h : Ok m) (w : Word) (hs : List Word) (c : Rat) :
    m.incrStr w hs c = { m with
      enc := (w :: hs).foldl Enc.addSym m.enc
      tbl := m.tbl.incr (((w :: hs).foldl Enc.addSym m.enc).codes hs).2 (((w :: hs).foldl Enc.addSym m.enc).code w).2 c } := by
  obtain ⟨_, _, h3⟩ := addSyms_spec h.enc (w :: hs)
  unfold LM.incrStr LM.incrCode
  dsimp only
  rw [foldl_addSymbol]
  have hw : (((w :: hs).foldl Enc.addSym m.enc).code w).1 = true := (h3 w).2 (Or.inr List.mem_cons_self)
  have hl : hs.map (LM.index { m with enc := (w :: hs).foldl Enc.addSym m.enc }) =
      (((w :: hs).foldl Enc.addSym m.enc).codes hs).2 := by
    unfold Enc.codes
    dsimp only
    refine List.map_congr_left ?_
    intro x hx
    exact index_known (m := { m with enc := (w :: hs).foldl Enc.addSym m.enc })
      ((h3 x).2 (Or.inr (List.mem_cons_of_mem _ hx)))
  rw [hl, index_known (m := { m with enc := (w :: hs).foldl Enc.addSym m.enc }) hw]

theorem ok_incrStr {m : LM} (h : Ok m) (w : Word) (hs : List Word) (c : Rat) : Ok (m.incrStr w hs c) := by
  have h0 := ok_addSymbols h (w :: hs)
  rw [foldl_addSymbol] at h0
  obtain ⟨h1, h2, h3⟩ := addSyms_spec h.enc (w :: hs)
  rw [incrStr_eq m h]
  have hk : ∀ x ∈ w :: hs, ∃ v, AMap.lk ((w :: hs).foldl Enc.addSym m.enc).w2c v =
      some (((w :: hs).foldl Enc.addSym m.enc).code x).2 :=
    fun x hx => ⟨x, lk_of_code ((h3 x).2 (Or.inr hx))⟩
  refine ⟨h1, tblOk_incr h.tbl _ _ _, ?_, ?_⟩
  · intro s t hn x hx
    dsimp only at hn ⊢
    rw [cSrcTrg_incr h.tbl] at hn
    by_cases he : s = (((w :: hs).foldl Enc.addSym m.enc).codes hs).2 ∧ t = (((w :: hs).foldl Enc.addSym m.enc).code w).2
    · rcases List.mem_cons.1 hx with hx | hx
      · rw [hx, he.2]; exact hk w List.mem_cons_self
      · rw [he.1] at hx
        obtain ⟨y, hy, rfl⟩ := List.mem_map.1 hx
        exact hk y (List.mem_cons_of_mem _ hy)
    · rw [if_neg he] at hn
      exact h0.suppST s t (by dsimp only; grind) x hx
  · intro s hn x hx
    dsimp only at hn ⊢
    rw [cSrc_incr h.tbl] at hn
    by_cases he : s = (((w :: hs).foldl Enc.addSym m.enc).codes hs).2
    · rw [he] at hx
      obtain ⟨y, hy, rfl⟩ := List.mem_map.1 hx
      exact hk y (List.mem_cons_of_mem _ hy)
    · rw [if_neg he] at hn
      exact h0.suppS s (by dsimp only; grind) x hx

theorem cNgramStr_incrStr {m : LM} (h : Ok m) (w : Word) (hs : List Word) (c : Rat) (w' : Word) (hs' : List Word) :
    (m.incrStr w hs c).cNgramStr w' hs' = m.cNgramStr w' hs' + if w' = w ∧ hs' = hs then c else 0 := by
  rw [← cNgramStr_addSymbols h (w :: hs) w' hs', foldl_addSymbol, incrStr_eq m h]
  obtain ⟨h1, h2, h3⟩ := addSyms_spec h.enc (w :: hs)
  unfold LM.cNgramStr
  dsimp only
  rw [cSrcTrg_incr h.tbl]
  generalize (w :: hs).foldl Enc.addSym m.enc = e at *
  have kw : (e.code w).1 = true := (h3 w).2 (Or.inr List.mem_cons_self)
  have kh : (e.codes hs).1 = true := codes_fst.2 (fun x hx => (h3 x).2 (Or.inr (List.mem_cons_of_mem _ hx)))
  by_cases a1 : (e.codes hs').1 = true
  · rw [if_pos a1]
    by_cases a2 : (e.code w').1 = true
    · rw [if_pos a2, if_pos a1, if_pos a2]
      congr 1
      by_cases he : w' = w ∧ hs' = hs
      · rw [if_pos he, if_pos (by rw [he.1, he.2]; exact ⟨rfl, rfl⟩)]
      · rw [if_neg he, if_neg]
        rintro ⟨b1, b2⟩
        exact he ⟨code_inj h1 a2 kw b2, codes_inj h1 a1 kh b1⟩
    · rw [if_neg a2, if_pos a1, if_neg a2, if_neg]
      · grind
      · rintro ⟨rfl, _⟩; exact a2 kw
  · rw [if_neg a1, if_neg a1, if_neg]
    · grind
    · rintro ⟨_, rfl⟩; exact a1 kh

theorem cHistStr_incrStr {m : LM} (h : Ok m) (w : Word) (hs : List Word) (c : Rat) (hs' : List Word) :
    (m.incrStr w hs c).cHistStr hs' = m.cHistStr hs' + if hs' = hs then c else 0 := by
  rw [← cHistStr_addSymbols h (w :: hs) hs', foldl_addSymbol, incrStr_eq m h]
  obtain ⟨h1, h2, h3⟩ := addSyms_spec h.enc (w :: hs)
  unfold LM.cHistStr
  dsimp only
  rw [cSrc_incr h.tbl]
  generalize (w :: hs).foldl Enc.addSym m.enc = e at *
  have kh : (e.codes hs).1 = true := codes_fst.2 (fun x hx => (h3 x).2 (Or.inr (List.mem_cons_of_mem _ hx)))
  by_cases a1 : (e.codes hs').1 = true
  · rw [if_pos a1, if_pos a1]
    congr 1
    by_cases he : hs' = hs
    · rw [if_pos he, if_pos (by rw [he])]
    · rw [if_neg he, if_neg]
      intro b1; exact he (codes_inj h1 a1 kh b1)
  · rw [if_neg a1, if_neg a1, if_neg]
    · grind
    · rintro rfl; exact a1 kh

theorem existSymbol_incrStr {m : LM} (h : Ok m) (w : Word) (hs : List Word) (c : Rat) (x : Word) :
    (m.incrStr w hs c).existSymbol x = true ↔ m.existSymbol x = true ∨ x ∈ w :: hs := by
  rw [incrStr_eq m h]
  exact (addSyms_spec h.enc (w :: hs)).2.2 x

theorem ext_incrStr {m : LM} (h : Ok m) (w : Word) (hs : List Word) (c : Rat) : Ext m.enc (m.incrStr w hs c).enc := by
  rw [incrStr_eq m h]
  exact (addSyms_spec h.enc (w :: hs)).2.1

theorem cNgramStr_unknown {m : LM} {w : Word} (h : m.existSymbol w ≠ true) (hs : List Word) : m.cNgramStr w hs = 0 := by
  unfold LM.cNgramStr
  unfold LM.existSymbol at h
  rw [if_neg h]
  split <;> rfl

end Thot.LangModel
