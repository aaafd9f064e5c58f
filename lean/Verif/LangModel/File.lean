import Verif.LangModel.Prob
/-! C101: printing a language model and loading it. -/
namespace Thot.LangModel

open Thot

/-! ### Printing -/

theorem decodes_codes {e : Enc} (ok : EncOk e) (s : List Nat) (hs : List Word) :
    e.decodes s = some hs ↔ (e.codes hs).1 = true ∧ (e.codes hs).2 = s := by
  unfold Enc.decodes
  induction s generalizing hs with
  | nil =>
    cases hs with
    | nil => simp [Enc.codes]
    | cons a hs => simp [Enc.codes]
  | cons c s ih =>
    rw [List.mapM_cons]
    simp only [Option.bind_eq_bind, Option.bind_eq_some_iff]
    constructor
    · rintro ⟨w, h1, ws, h2, h3⟩
      have h3 : w :: ws = hs := by simpa using h3
      subst h3
      obtain ⟨g1, g2⟩ := (ih ws).1 h2
      have h4 := code_some ((ok.iff _ _).2 h1)
      refine ⟨codes_fst.2 ?_, ?_⟩
      · intro x hx
        rcases List.mem_cons.1 hx with rfl | hx
        · rw [h4]
        · exact codes_fst.1 g1 x hx
      · rw [codes_cons, h4, g2]
    · rintro ⟨h1, h2⟩
      cases hs with
      | nil => simp [Enc.codes] at h2
      | cons w ws =>
        rw [codes_cons] at h2
        injection h2 with h2 h3
        have hk := codes_fst.1 h1
        refine ⟨w, ?_, ws, (ih ws).2 ⟨codes_fst.2 (fun x hx => hk x (List.mem_cons_of_mem _ hx)), h3⟩, rfl⟩
        rw [← h2]
        exact (ok.iff _ _).1 (lk_of_code (hk w List.mem_cons_self))

theorem cNgramStr_codes {m : LM} {w : Word} {h : List Word} (hh : (m.enc.codes h).1 = true) (hw : (m.enc.code w).1 = true) :
    m.cNgramStr w h = m.tbl.cSrcTrg (m.enc.codes h).2 (m.enc.code w).2 := by
  unfold LM.cNgramStr; rw [if_pos hh, if_pos hw]

theorem cHistStr_codes {m : LM} {h : List Word} (hh : (m.enc.codes h).1 = true) :
    m.cHistStr h = m.tbl.cSrc (m.enc.codes h).2 := by
  unfold LM.cHistStr; rw [if_pos hh]

theorem known_of_cNgramStr {m : LM} {w : Word} {h : List Word} (hn : m.cNgramStr w h ≠ 0) :
    (m.enc.codes h).1 = true ∧ (m.enc.code w).1 = true := by
  unfold LM.cNgramStr at hn
  by_cases h1 : (m.enc.codes h).1 = true
  · by_cases h2 : (m.enc.code w).1 = true
    · exact ⟨h1, h2⟩
    · rw [if_pos h1, if_neg h2] at hn; exact absurd rfl hn
  · rw [if_neg h1] at hn; exact absurd rfl hn

/-- The lines of the file: one for every n-gram with a positive count. -/
theorem mem_print {m : LM} (ok : Ok m) (L : Line) :
    L ∈ m.print ↔ 0 < L.cst ∧ L.cst = m.cNgramStr L.word L.hist ∧ L.cs = m.cHistStr L.hist := by
  unfold LM.print
  rw [TrieVecs.collect_begin 0 _ _ (Nat.le_refl _), List.mem_filterMap]
  constructor
  · rintro ⟨⟨ks, x⟩, h1, h2⟩
    unfold LM.lineOf at h2
    dsimp only at h2
    split at h2
    · rename_i hc
      simp only [Option.bind_eq_bind, Option.bind_eq_some_iff] at h2
      obtain ⟨hs, h3, ht, h4, h5⟩ := h2
      injection h5 with h5
      subst h5
      have hk : ks = ks.dropLast ++ [ks.getLastD 0] := by
        rcases ks.eq_nil_or_concat with h | ⟨l, a, h⟩
        · rw [h] at hc; simp at hc
        · rw [h]; simp
      rcases List.mem_append.1 h1 with h1 | h1
      · obtain ⟨ks', h6, h7⟩ := (TrieVecs.mem_post [] _ ok.tbl.1 _ _).1 h1
        have h6 : ks = ks' := by simpa using h6
        subst h6
        obtain ⟨g1, g2⟩ := (decodes_codes ok.enc _ _).1 h3
        have g3 := code_some ((ok.enc.iff _ _).2 h4)
        have hv : m.tbl.cSrcTrg ks.dropLast (ks.getLastD 0) = x := by
          rw [cSrcTrg_val, ← hk]; unfold val; rw [h7]; rfl
        dsimp only
        rw [cNgramStr_codes g1 (by rw [g3]), cHistStr_codes g1, g2, g3, hv]
        exact ⟨hc.2, rfl, rfl⟩
      · simp only [List.mem_singleton, Prod.mk.injEq] at h1
        rw [h1.1] at hc; simp at hc
    · cases h2
  · rintro ⟨h1, h2, h3⟩
    obtain ⟨hist, word, cs, cst⟩ := L
    dsimp only at h1 h2 h3
    obtain ⟨g1, g2⟩ := known_of_cNgramStr (m := m) (w := word) (h := hist) (by grind)
    rw [cNgramStr_codes g1 g2, cSrcTrg_val] at h2
    rw [cHistStr_codes g1] at h3
    have hf : TrieVecs.find m.tbl.st ((m.enc.codes hist).2 ++ [(m.enc.code word).2]) = some cst := by
      unfold val at h2
      cases hh : TrieVecs.find m.tbl.st ((m.enc.codes hist).2 ++ [(m.enc.code word).2]) with
      | none => rw [hh] at h2; simp only [Option.getD_none] at h2; grind
      | some v => rw [hh] at h2; simp only [Option.getD_some] at h2; rw [h2]
    refine ⟨((m.enc.codes hist).2 ++ [(m.enc.code word).2], cst), List.mem_append_left _ ?_, ?_⟩
    · exact (TrieVecs.mem_post [] _ ok.tbl.1 _ _).2 ⟨_, by simp, hf⟩
    · unfold LM.lineOf
      dsimp only
      rw [if_pos ⟨by simp, h1⟩]
      have e1 : ((m.enc.codes hist).2 ++ [(m.enc.code word).2]).dropLast = (m.enc.codes hist).2 := by simp
      have e2 : ((m.enc.codes hist).2 ++ [(m.enc.code word).2]).getLastD 0 = (m.enc.code word).2 := by simp
      rw [e1, e2, (decodes_codes ok.enc _ hist).2 ⟨g1, rfl⟩]
      have e3 : m.enc.decode (m.enc.code word).2 = some word := (ok.enc.iff _ _).1 (lk_of_code g2)
      rw [e3, h3]
      rfl

/-! ### Adding an entry -/

theorem put_same {K V : Type} [DecidableEq K] {m : List (K × V)} {k : K} {v : V} (h : AMap.lk m k = some v) :
    AMap.put m k v = m := by
  induction m with
  | nil => simp [AMap.lk] at h
  | cons e r ih =>
    rw [AMap.lk] at h
    rw [AMap.put]
    split at h
    · rename_i hk
      rw [if_pos hk]
      injection h with h
      rw [← h, ← hk]
    · rename_i hk
      rw [if_neg hk, ih h]

/-- `genHSrcCode` changes the last code only, and depends on the codes of the words. -/
theorem gens_agree {e e' : Enc} (hl : e.last = e'.last) (hs : List Word)
    (h : ∀ w ∈ hs, AMap.lk e.w2c w = AMap.lk e'.w2c w) :
    (e.gens hs).2 = (e'.gens hs).2 ∧ (e.gens hs).1.last = (e'.gens hs).1.last ∧
      (e.gens hs).1.w2c = e.w2c ∧ (e.gens hs).1.c2w = e.c2w := by
  induction hs generalizing e e' with
  | nil => exact ⟨rfl, hl, rfl, rfl⟩
  | cons w hs ih =>
    have h1 := h w List.mem_cons_self
    have h2 : (e.gen w).2 = (e'.gen w).2 ∧ (e.gen w).1.last = (e'.gen w).1.last ∧ (e.gen w).1.w2c = e.w2c ∧
        (e.gen w).1.c2w = e.c2w ∧ (e'.gen w).1.w2c = e'.w2c := by
      unfold Enc.gen
      rw [← h1]
      cases AMap.lk e.w2c w with
      | none => exact ⟨by dsimp only; rw [hl], by dsimp only; rw [hl], rfl, rfl, rfl⟩
      | some c => exact ⟨rfl, hl, rfl, rfl, rfl⟩
    obtain ⟨a1, a2, a3, a4, a5⟩ := h2
    obtain ⟨b1, b2, b3, b4⟩ := ih (e := (e.gen w).1) (e' := (e'.gen w).1) a2
      (fun x hx => by rw [a3, a5]; exact h x (List.mem_cons_of_mem _ hx))
    unfold Enc.gens
    dsimp only
    refine ⟨by rw [a1, b1], b2, by rw [b3, a3], by rw [b4, a4]⟩

theorem enc_ext {e e' : Enc} (h1 : e.w2c = e'.w2c) (h2 : e.c2w = e'.c2w) (h3 : e.last = e'.last) : e = e' := by
  cases e; cases e'; simp_all

/-- Adding the words of a history one by one, when no unknown word is repeated in it. -/
theorem addCodes_gens {e : Enc} (ok : EncOk e) (hs : List Word)
    (hr : ∀ w, 2 ≤ hs.count w → (e.code w).1 = true) :
    (e.gens hs).1.addCodes hs (e.gens hs).2 = hs.foldl Enc.addSym e ∧
      (e.gens hs).2 = ((hs.foldl Enc.addSym e).codes hs).2 := by
  induction hs generalizing e with
  | nil => exact ⟨rfl, rfl⟩
  | cons w hs ih =>
    obtain ⟨ok', ext', hkw, hall⟩ := addSym_spec ok w
    have hr' : ∀ x, 2 ≤ hs.count x → ((e.addSym w).code x).1 = true := by
      intro x hx
      refine (hall x).2 (Or.inl (hr x ?_))
      have := List.count_le_count_cons (a := x) (b := w) (l := hs)
      omega
    obtain ⟨i1, i2⟩ := ih ok' hr'
    have hw : (e.gen w).1 = { e with last := (e.addSym w).last } ∧ (e.gen w).2 = ((e.addSym w).code w).2 ∧
        (e.addSym w).w2c = AMap.put e.w2c w (e.gen w).2 ∧ (e.addSym w).c2w = AMap.put e.c2w (e.gen w).2 w := by
      cases hh : AMap.lk e.w2c w with
      | none =>
        have hg : e.gen w = ({ e with last := e.last + 1 }, e.last + 1) := by unfold Enc.gen; rw [hh]
        rw [addSym_new hh, hg]
        refine ⟨rfl, ?_, rfl, rfl⟩
        rw [code_some (w := w) (c := e.last + 1) (by simp [Enc.addCode])]
      | some c =>
        have hg : e.gen w = (e, c) := by unfold Enc.gen; rw [hh]
        rw [addSym_known (code_true.2 ⟨c, hh⟩), hg, code_some hh]
        refine ⟨rfl, rfl, (put_same hh).symm, (put_same ((ok.iff _ _).1 hh)).symm⟩
    obtain ⟨w1, w2, w3, w4⟩ := hw
    have hag := gens_agree (e := (e.gen w).1) (e' := e.addSym w) (by rw [w1]) hs (by
      intro x hx
      rw [w1]
      dsimp only
      by_cases hxw : x = w
      · subst hxw
        have : (e.code x).1 = true := hr x (by
          rw [List.count_cons_self]
          have := List.count_pos_iff.2 hx
          omega)
        rw [addSym_known this]
      · rw [w3, AMap.lk_put_ne _ _ hxw])
    have hag2 := gens_agree (e := e.addSym w) (e' := e.addSym w) rfl hs (fun _ _ => rfl)
    obtain ⟨c1, c2, c3, c4⟩ := hag
    have hst : (((e.gen w).1.gens hs).1.addCode w (e.gen w).2) = ((e.addSym w).gens hs).1 := by
      refine enc_ext ?_ ?_ c2
      · rw [hag2.2.2.1, w3]
        show AMap.put ((e.gen w).1.gens hs).1.w2c w (e.gen w).2 = _
        rw [c3, w1]
      · rw [hag2.2.2.2, w4]
        show AMap.put ((e.gen w).1.gens hs).1.c2w (e.gen w).2 w = _
        rw [c4, w1]
    constructor
    · unfold Enc.gens
      dsimp only
      unfold Enc.addCodes
      rw [hst, c1, List.foldl_cons]
      exact i1
    · unfold Enc.gens
      dsimp only
      rw [c1, i2, codes_cons, List.foldl_cons]
      congr 1
      rw [w2]
      exact (congrArg Prod.snd (code_ext (addSyms_spec ok' hs).2.1 hkw)).symm

theorem foldl_addSym_known {e : Enc} (hs : List Word) (h : ∀ w ∈ hs, (e.code w).1 = true) : hs.foldl Enc.addSym e = e := by
  induction hs with
  | nil => rfl
  | cons w hs ih =>
    rw [List.foldl_cons, addSym_known (h w List.mem_cons_self)]
    exact ih (fun x hx => h x (List.mem_cons_of_mem _ hx))

theorem addSrc_eq {e : Enc} (ok : EncOk e) (hs : List Word) (hr : ∀ w, 2 ≤ hs.count w → (e.code w).1 = true) :
    e.addSrc hs = (hs.foldl Enc.addSym e, ((hs.foldl Enc.addSym e).codes hs).2) := by
  unfold Enc.addSrc
  by_cases hk : (e.codes hs).1 = true
  · rw [if_pos hk, foldl_addSym_known hs (codes_fst.1 hk)]
  · rw [if_neg hk, (addCodes_gens ok hs hr).1, (addCodes_gens ok hs hr).2]

theorem tblOk_addEntry {tb : Table} (h : TblOk tb) (s : List Nat) (t : Nat) (a b : Rat) : TblOk (tb.addEntry s t a b) := by
  unfold Table.addEntry Table.addSrcInfo Table.addSrcTrgInfo
  split
  · exact ⟨TrieVecs.wf_insert _ _ h.1 _, TrieVecs.wf_insert _ _ h.2 _⟩
  · exact ⟨TrieVecs.wf_insert _ _ h.1 _, h.2⟩

theorem cSrcTrg_addEntry {tb : Table} (h : TblOk tb) (s : List Nat) (t : Nat) (a b : Rat) (s' : List Nat) (t' : Nat) :
    (tb.addEntry s t a b).cSrcTrg s' t' = if s' = s ∧ t' = t then b else tb.cSrcTrg s' t' := by
  rw [cSrcTrg_val, cSrcTrg_val]
  have : (tb.addEntry s t a b).st = TrieVecs.insert 0 b tb.st (s ++ [t]) := by
    unfold Table.addEntry Table.addSrcInfo Table.addSrcTrgInfo; split <;> rfl
  rw [this, val_insert h.1 _ (by simp)]
  have e : (s' ++ [t'] = s ++ [t]) ↔ (s' = s ∧ t' = t) := by simp
  simp only [e]

theorem cSrc_addEntry {tb : Table} (h : TblOk tb) (s : List Nat) (t : Nat) (a b : Rat) (s' : List Nat) :
    (tb.addEntry s t a b).cSrc s' = if s' = s then a else tb.cSrc s' := by
  rw [cSrc_val, cSrc_val]
  unfold Table.addEntry Table.addSrcInfo Table.addSrcTrgInfo
  by_cases hs : s = []
  · subst hs
    simp only [ne_eq, not_true_eq_false, if_false]
    split
    · rfl
    · rfl
  · simp only [ne_eq, hs, not_false_eq_true, if_true]
    rw [val_insert h.2 _ hs]
    by_cases h2 : s' = []
    · subst h2
      have : ¬ [] = s := fun hh => hs hh.symm
      simp [this]
    · simp [h2]

theorem addEntryStr_eq (m : LM) (h : Ok m) (L : Line) (hr : ∀ w, 2 ≤ L.hist.count w → m.existSymbol w = true) :
    m.addEntryStr L = { m with
      enc := (L.hist ++ [L.word]).foldl Enc.addSym m.enc
      tbl := m.tbl.addEntry (((L.hist ++ [L.word]).foldl Enc.addSym m.enc).codes L.hist).2
        (((L.hist ++ [L.word]).foldl Enc.addSym m.enc).code L.word).2 L.cs L.cst } := by
  unfold LM.addEntryStr
  rw [addSrc_eq h.enc L.hist hr]
  dsimp only
  rw [List.foldl_append]
  obtain ⟨g1, g2, g3⟩ := addSyms_spec h.enc L.hist
  obtain ⟨_, f2, _⟩ := addSym_spec g1 L.word
  have : ((L.hist.foldl Enc.addSym m.enc).codes L.hist).1 = true :=
    codes_fst.2 (fun x hx => (g3 x).2 (Or.inr hx))
  have hc := codes_ext f2 this
  simp only [List.foldl_cons, List.foldl_nil]
  rw [hc]

theorem addEntryStr_spec {m : LM} (h : Ok m) (L : Line) (hr : ∀ w, 2 ≤ L.hist.count w → m.existSymbol w = true) :
    Ok (m.addEntryStr L) ∧ Ext m.enc (m.addEntryStr L).enc ∧
    (∀ x, (m.addEntryStr L).existSymbol x = true ↔ m.existSymbol x = true ∨ x ∈ L.hist ∨ x = L.word) ∧
    (∀ w hs, (m.addEntryStr L).cNgramStr w hs = if w = L.word ∧ hs = L.hist then L.cst else m.cNgramStr w hs) ∧
    (∀ hs, (m.addEntryStr L).cHistStr hs = if hs = L.hist then L.cs else m.cHistStr hs) := by
  have hcn := fun w hs => cNgramStr_addSymbols h (L.hist ++ [L.word]) w hs
  have hch := fun hs => cHistStr_addSymbols h (L.hist ++ [L.word]) hs
  have h0 := ok_addSymbols h (L.hist ++ [L.word])
  rw [foldl_addSymbol] at hcn hch h0
  obtain ⟨h1, h2, h3⟩ := addSyms_spec h.enc (L.hist ++ [L.word])
  rw [addEntryStr_eq m h L hr]
  generalize (L.hist ++ [L.word]).foldl Enc.addSym m.enc = e at *
  have kw : (e.code L.word).1 = true := (h3 _).2 (Or.inr (by simp))
  have kh : (e.codes L.hist).1 = true := codes_fst.2 (fun x hx => (h3 x).2 (Or.inr (by simp [hx])))
  refine ⟨⟨h1, tblOk_addEntry h.tbl _ _ _ _, ?_, ?_⟩, h2, ?_, ?_, ?_⟩
  · intro s t hn x hx
    dsimp only at hn ⊢
    rw [cSrcTrg_addEntry h.tbl] at hn
    by_cases he : s = (e.codes L.hist).2 ∧ t = (e.code L.word).2
    · rcases List.mem_cons.1 hx with hx | hx
      · rw [hx, he.2]; exact ⟨_, lk_of_code kw⟩
      · rw [he.1] at hx
        obtain ⟨y, hy, rfl⟩ := List.mem_map.1 hx
        exact ⟨_, lk_of_code (codes_fst.1 kh y hy)⟩
    · rw [if_neg he] at hn
      exact h0.suppST s t hn x hx
  · intro s hn x hx
    dsimp only at hn ⊢
    rw [cSrc_addEntry h.tbl] at hn
    by_cases he : s = (e.codes L.hist).2
    · rw [he] at hx
      obtain ⟨y, hy, rfl⟩ := List.mem_map.1 hx
      exact ⟨_, lk_of_code (codes_fst.1 kh y hy)⟩
    · rw [if_neg he] at hn
      exact h0.suppS s hn x hx
  · intro x
    refine Iff.trans (h3 x) ?_
    simp; rfl
  · intro w hs
    rw [← hcn w hs]
    unfold LM.cNgramStr
    dsimp only
    rw [cSrcTrg_addEntry h.tbl]
    by_cases a1 : (e.codes hs).1 = true
    · by_cases a2 : (e.code w).1 = true
      · simp only [a1, a2, if_true]
        by_cases he : w = L.word ∧ hs = L.hist
        · rw [if_pos he, if_pos (by rw [he.1, he.2]; exact ⟨rfl, rfl⟩)]
        · rw [if_neg he, if_neg]
          rintro ⟨b1, b2⟩
          exact he ⟨code_inj h1 a2 kw b2, codes_inj h1 a1 kh b1⟩
      · rw [if_pos a1, if_neg a2, if_neg]
        · rw [if_pos a1, if_neg a2]
        · rintro ⟨rfl, _⟩; exact a2 kw
    · rw [if_neg a1, if_neg]
      · rw [if_neg a1]
      · rintro ⟨_, rfl⟩; exact a1 kh
  · intro hs
    rw [← hch hs]
    unfold LM.cHistStr
    dsimp only
    rw [cSrc_addEntry h.tbl]
    by_cases a1 : (e.codes hs).1 = true
    · simp only [a1, if_true]
      by_cases he : hs = L.hist
      · rw [if_pos he, if_pos (by rw [he])]
      · rw [if_neg he, if_neg]
        intro b1; exact he (codes_inj h1 a1 kh b1)
    · rw [if_neg a1, if_neg]
      · rw [if_neg a1]
      · rintro rfl; exact a1 kh

/-! ### Loading -/

theorem addEntries_spec (N : Word → List Word → Rat) (H : List Word → Rat) (f : List Line)
    (hN : ∀ L ∈ f, L.cst = N L.word L.hist) (hH : ∀ L ∈ f, L.cs = H L.hist) :
    ∀ m : LM, Ok m → (∀ L ∈ f, ∀ w, 2 ≤ L.hist.count w → m.existSymbol w = true) →
      Ok (f.foldl LM.addEntryStr m) ∧
      (∀ x, (f.foldl LM.addEntryStr m).existSymbol x = true ↔
        m.existSymbol x = true ∨ ∃ L ∈ f, x ∈ L.hist ∨ x = L.word) ∧
      (∀ w hs, (f.foldl LM.addEntryStr m).cNgramStr w hs =
        if ∃ L ∈ f, L.word = w ∧ L.hist = hs then N w hs else m.cNgramStr w hs) ∧
      (∀ hs, (f.foldl LM.addEntryStr m).cHistStr hs = if ∃ L ∈ f, L.hist = hs then H hs else m.cHistStr hs) := by
  induction f with
  | nil => intro m h _; exact ⟨h, by simp, by simp, by simp⟩
  | cons L f ih =>
    intro m h hr
    obtain ⟨h1, h2, h3, h4, h5⟩ := addEntryStr_spec h L (hr L List.mem_cons_self)
    obtain ⟨g1, g2, g3, g4⟩ := ih (fun L hL => hN L (List.mem_cons_of_mem _ hL)) (fun L hL => hH L (List.mem_cons_of_mem _ hL))
      (m.addEntryStr L) h1 (fun L' hL' w hw => (h3 w).2 (Or.inl (hr L' (List.mem_cons_of_mem _ hL') w hw)))
    refine ⟨g1, ?_, ?_, ?_⟩
    · intro x
      rw [List.foldl_cons, g2, h3]
      simp only [List.mem_cons, exists_eq_or_imp, or_assoc]
    · intro w hs
      rw [List.foldl_cons, g3, h4]
      by_cases c1 : ∃ L ∈ f, L.word = w ∧ L.hist = hs
      · rw [if_pos c1, if_pos]
        obtain ⟨L', a, b⟩ := c1
        exact ⟨L', List.mem_cons_of_mem _ a, b⟩
      · rw [if_neg c1]
        by_cases c2 : w = L.word ∧ hs = L.hist
        · rw [if_pos c2, if_pos ⟨L, List.mem_cons_self, c2.1.symm, c2.2.symm⟩, c2.1, c2.2]
          exact hN L List.mem_cons_self
        · rw [if_neg c2, if_neg]
          rintro ⟨L', a, b⟩
          rcases List.mem_cons.1 a with rfl | a
          · exact c2 ⟨b.1.symm, b.2.symm⟩
          · exact c1 ⟨L', a, b⟩
    · intro hs
      rw [List.foldl_cons, g4, h5]
      by_cases c1 : ∃ L ∈ f, L.hist = hs
      · rw [if_pos c1, if_pos]
        obtain ⟨L', a, b⟩ := c1
        exact ⟨L', List.mem_cons_of_mem _ a, b⟩
      · rw [if_neg c1]
        by_cases c2 : hs = L.hist
        · rw [if_pos c2, if_pos ⟨L, List.mem_cons_self, c2.symm⟩, c2]
          exact hH L List.mem_cons_self
        · rw [if_neg c2, if_neg]
          rintro ⟨L', a, b⟩
          rcases List.mem_cons.1 a with rfl | a
          · exact c2 b.symm
          · exact c1 ⟨L', a, b⟩

theorem maxOrder_go (f : List Line) (o : Nat) :
    o ≤ f.foldl (fun o (l : Line) => if o < l.hist.length + 1 then l.hist.length + 1 else o) o ∧
    (∀ L ∈ f, L.hist.length + 1 ≤ f.foldl (fun o (l : Line) => if o < l.hist.length + 1 then l.hist.length + 1 else o) o) ∧
    (f.foldl (fun o (l : Line) => if o < l.hist.length + 1 then l.hist.length + 1 else o) o = o ∨
      ∃ L ∈ f, f.foldl (fun o (l : Line) => if o < l.hist.length + 1 then l.hist.length + 1 else o) o = L.hist.length + 1) := by
  induction f generalizing o with
  | nil => exact ⟨Nat.le_refl _, by simp, Or.inl rfl⟩
  | cons L f ih =>
    obtain ⟨h1, h2, h3⟩ := ih (if o < L.hist.length + 1 then L.hist.length + 1 else o)
    rw [List.foldl_cons]
    refine ⟨?_, ?_, ?_⟩
    · refine Nat.le_trans ?_ h1; split <;> omega
    · intro L' hL'
      rcases List.mem_cons.1 hL' with rfl | hL'
      · refine Nat.le_trans ?_ h1; split <;> omega
      · exact h2 L' hL'
    · rcases h3 with h3 | ⟨L', a, b⟩
      · by_cases hc : o < L.hist.length + 1
        · rw [if_pos hc] at h3 ⊢
          exact Or.inr ⟨L, List.mem_cons_self, h3⟩
        · rw [if_neg hc] at h3 ⊢
          exact Or.inl h3
      · exact Or.inr ⟨L', List.mem_cons_of_mem _ a, b⟩

theorem load_fields (m : LM) (f : List Line) :
    (m.load f).enc = (f.foldl LM.addEntryStr { m with tbl := Table.empty, order := maxOrder f }).enc ∧
    (m.load f).tbl = (f.foldl LM.addEntryStr { m with tbl := Table.empty, order := maxOrder f }).tbl := by
  unfold LM.load
  dsimp only
  split <;> exact ⟨rfl, rfl⟩

theorem order_addEntries (f : List Line) (m : LM) : (f.foldl LM.addEntryStr m).order = m.order := by
  induction f generalizing m with
  | nil => rfl
  | cons L f ih => rw [List.foldl_cons, ih]; rfl

theorem order_load (m : LM) (f : List Line) : (m.load f).order = if maxOrder f = 0 then m.order else maxOrder f := by
  unfold LM.load
  dsimp only
  split
  · rfl
  · rw [order_addEntries]

/-- C101. A model with non-negative counts is printed, and the file is loaded into another model (whatever was done with
it before). If every word that is repeated in the history of some printed n-gram is already known to that model, then
afterwards all counts of n-grams and histories are the ones of the printed model, the known words are the words known
before and the words of the n-grams, and the order is the length of the longest n-gram. -/
theorem C101_print_load_partial (ops ops' : List Op) (hn : ∀ op ∈ ops, NonNeg op)
    (hr : ∀ w h, 0 < count w h ops → ∀ x, 2 ≤ h.count x → Known x ops') :
    (∀ w h, ((run ops').load (run ops).print).cNgramStr w h = (run ops).cNgramStr w h) ∧
    (∀ h, ((run ops').load (run ops).print).cHistStr h = (run ops).cHistStr h) ∧
    (∀ x, ((run ops').load (run ops).print).existSymbol x = true ↔
      Known x ops' ∨ ∃ w h, 0 < count w h ops ∧ x ∈ w :: h) ∧
    ((∀ w h, count w h ops = 0) → ((run ops').load (run ops).print).order = orderOf ops') ∧
    (∀ w h, 0 < count w h ops → (∀ w' h', 0 < count w' h' ops → h'.length ≤ h.length) →
      ((run ops').load (run ops).print).order = h.length + 1) := by
  have r := reach_run ops hn
  have hmem := mem_print r.ok
  have ok0 : Ok { run ops' with tbl := Table.empty, order := maxOrder (run ops).print } :=
    ⟨(ok_run ops').enc, tblOk_empty, fun s t hn => absurd (cSrcTrg_empty s t) hn, fun s hn => absurd (cSrc_empty s) hn⟩
  have hpos : ∀ w h, 0 < count w h ops ↔ ⟨h, w, (run ops).cHistStr h, count w h ops⟩ ∈ (run ops).print := by
    intro w h
    rw [hmem]
    simp [count_run]
  obtain ⟨g1, g2, g3, g4⟩ := addEntries_spec (fun w h => (run ops).cNgramStr w h) (fun h => (run ops).cHistStr h)
    (run ops).print (fun L hL => ((hmem L).1 hL).2.1) (fun L hL => ((hmem L).1 hL).2.2) _ ok0 (by
      intro L hL x hx
      obtain ⟨a1, a2, a3⟩ := (hmem L).1 hL
      refine (known_run ops' x).2 (hr L.word L.hist ?_ x hx)
      rw [← count_run, ← a2]; exact a1)
  obtain ⟨e1, e2⟩ := load_fields (run ops') (run ops).print
  have hz1 : ∀ w h, LM.cNgramStr { run ops' with tbl := Table.empty, order := maxOrder (run ops).print } w h = 0 := by
    intro w h
    unfold LM.cNgramStr
    dsimp only
    rw [cSrcTrg_empty]
    split
    · split <;> rfl
    · rfl
  have hz2 : ∀ h, LM.cHistStr { run ops' with tbl := Table.empty, order := maxOrder (run ops).print } h = 0 := by
    intro h
    unfold LM.cHistStr
    dsimp only
    rw [cSrc_empty]
    split <;> rfl
  refine ⟨?_, ?_, ?_, ?_, ?_⟩
  · intro w h
    have : ((run ops').load (run ops).print).cNgramStr w h =
        LM.cNgramStr ((run ops).print.foldl LM.addEntryStr
          { run ops' with tbl := Table.empty, order := maxOrder (run ops).print }) w h := by
      unfold LM.cNgramStr; rw [e1, e2]
    rw [this, g3, hz1]
    split
    · rfl
    · rename_i hc
      have := r.nonneg w h
      by_cases h0 : 0 < count w h ops
      · exact absurd ⟨_, (hpos w h).1 h0, rfl, rfl⟩ hc
      · rw [count_run] at this ⊢; grind
  · intro h
    have : ((run ops').load (run ops).print).cHistStr h =
        LM.cHistStr ((run ops).print.foldl LM.addEntryStr
          { run ops' with tbl := Table.empty, order := maxOrder (run ops).print }) h := by
      unfold LM.cHistStr; rw [e1, e2]
    rw [this, g4, hz2]
    split
    · rfl
    · rename_i hc
      rw [r.hist h _ r.ok.enc.dist (fun x hx => (mem_vocab _ x).2 hx), sumBy_zero]
      intro w _
      have := r.nonneg w h
      by_cases h0 : 0 < count w h ops
      · exact absurd ⟨_, (hpos w h).1 h0, rfl⟩ hc
      · rw [count_run] at this ⊢; grind
  · intro x
    have : ((run ops').load (run ops).print).existSymbol x =
        LM.existSymbol ((run ops).print.foldl LM.addEntryStr
          { run ops' with tbl := Table.empty, order := maxOrder (run ops).print }) x := by
      unfold LM.existSymbol; rw [e1]
    rw [this, g2]
    have hk : LM.existSymbol { run ops' with tbl := Table.empty, order := maxOrder (run ops).print } x = true ↔
        Known x ops' := known_run ops' x
    rw [hk]
    constructor
    · rintro (a | ⟨L, a, b⟩)
      · exact Or.inl a
      · obtain ⟨a1, a2, a3⟩ := (hmem L).1 a
        refine Or.inr ⟨L.word, L.hist, by rw [← count_run, ← a2]; exact a1, ?_⟩
        rcases b with b | b
        · exact List.mem_cons_of_mem _ b
        · rw [b]; exact List.mem_cons_self
    · rintro (a | ⟨w, h, a, b⟩)
      · exact Or.inl a
      · refine Or.inr ⟨_, (hpos w h).1 a, ?_⟩
        rcases List.mem_cons.1 b with b | b
        · exact Or.inr b
        · exact Or.inl b
  · intro h0
    have : (run ops).print = [] := by
      rw [List.eq_nil_iff_forall_not_mem]
      intro L hL
      obtain ⟨a1, a2, _⟩ := (hmem L).1 hL
      rw [count_run, h0] at a2
      grind
    rw [order_load, this, if_pos (show maxOrder [] = 0 from rfl), order_run]
  · intro w h h1 h2
    rw [order_load]
    obtain ⟨m1, m2, m3⟩ := maxOrder_go (run ops).print 0
    have b1 := m2 _ ((hpos w h).1 h1)
    have e : maxOrder (run ops).print = h.length + 1 := by
      unfold maxOrder
      rcases m3 with m3 | ⟨L, a, b⟩
      · dsimp only at b1; omega
      · obtain ⟨a1, a2, _⟩ := (hmem L).1 a
        have := h2 L.word L.hist (by rw [← count_run, ← a2]; exact a1)
        dsimp only at b1; omega
    rw [if_neg (by omega), e]

/-- The counts survive printing and loading into a new model. -/
def C101_full : Prop :=
  ∀ (ops : List Op), (∀ op ∈ ops, NonNeg op) → ∀ w h,
    ((run []).load (run ops).print).cNgramStr w h = (run ops).cNgramStr w h

/-- After training the sentence "x z a a y", the file has the n-gram "a a y" before any other with "a": loaded into a new
model, the two words of its history get different codes, and its count is lost. -/
theorem C101_counterexample : ¬ C101_full := by
  intro h
  have := h [.train [['x'], ['z'], ['a'], ['a'], ['y']] 1 0]
    (by intro op ho; simp at ho; subst ho; show (0 : Rat) ≤ 1; decide) ['y'] [['a'], ['a']]
  exact absurd this (by decide +kernel)

/-- Non-vacuity of C101: a sentence without repeated words loaded into a new model; trained with order 5, the file has
n-grams of up to four words, and the loaded model has order 4. -/
example : ((run []).load (run [.train [['a'], ['b']] 2 0, .setOrder 5]).print).cNgramStr ['b'] [bosStr, ['a']] = 2 ∧
    ((run []).load (run [.train [['a'], ['b']] 2 0, .setOrder 5]).print).order = 4 ∧
    (run [.train [['a'], ['b']] 2 0, .setOrder 5]).order = 5 := by decide +kernel

end Thot.LangModel
