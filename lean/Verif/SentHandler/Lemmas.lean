import Verif.SentHandler.Model
/-! Proofs about the sentence handler (helper lemmas; the claims are in `Props`). -/
namespace Thot.SentHandler

open Thot.Awk (Str)

/-- A line: no newline and no NUL character. -/
def Line (l : Str) : Prop := ∀ c ∈ l, c ≠ '\n' ∧ c ≠ '\x00'

instance (l : Str) : Decidable (Line l) := by unfold Line; infer_instance

/-- The file with the given lines, each one ended with a newline. -/
def text (ls : List Str) : Str := ls.flatMap fun l => l ++ ['\n']

theorem text_cons (l : Str) (ls : List Str) : text (l :: ls) = l ++ '\n' :: text ls := by
  unfold text; simp

/-- `k` lines of the file have been read. -/
structure At (ls : List Str) (k : Nat) (s : Stream) : Prop where
  isOpen : s.isOpen = true
  file : s.file = text ls
  rest : s.rest = text (ls.drop k)
  buf : ∀ l, 0 < k → ls[k - 1]? = some l → s.buf = some l

theorem at_getln {ls : List Str} (hl : ∀ l ∈ ls, Line l) {k : Nat} {s : Stream} (h : At ls k s) (hk : k < ls.length) :
    ∃ s', s.getln = (true, s') ∧ At ls (k + 1) s' := by
  have hd : ls.drop k = ls[k] :: ls.drop (k + 1) := (List.drop_eq_getElem_cons hk)
  have hg : Awk.getln s.rest = some (ls[k], text (ls.drop (k + 1))) := by
    rw [h.rest, hd, text_cons]
    exact Awk.getln_nl _ _ (hl _ (List.getElem_mem hk))
  refine ⟨{ s with rest := text (ls.drop (k + 1)), buf := some ls[k] }, ?_, h.isOpen, h.file, rfl, ?_⟩
  · unfold Stream.getln
    rw [if_pos h.isOpen, hg]
  · intro l _ he
    simp only [Nat.add_sub_cancel] at he
    rw [List.getElem?_eq_getElem hk] at he
    exact he

theorem at_end {ls : List Str} {k : Nat} {s : Stream} (h : At ls k s) (hk : ls.length ≤ k) : s.getln = (false, s) := by
  unfold Stream.getln
  rw [if_pos h.isOpen, h.rest, List.drop_eq_nil_of_le hk]
  rfl

theorem at_rwd {ls : List Str} {k : Nat} {s : Stream} (h : At ls k s) : At ls 0 s.rwd := by
  unfold Stream.rwd
  rw [if_pos h.isOpen]
  exact ⟨h.isOpen, h.file, h.file, fun l h0 => absurd h0 (Nat.lt_irrefl 0)⟩

theorem at_open (s : Stream) (ls : List Str) : ∃ s', s.openFile (some (text ls)) = (true, s') ∧ At ls 0 s' :=
  ⟨_, rfl, rfl, rfl, rfl, fun l h0 => absurd h0 (Nat.lt_irrefl 0)⟩

theorem at_buf {ls : List Str} {k : Nat} {s : Stream} (h : At ls (k + 1) s) (hk : k < ls.length) :
    s.buf = some (ls.getD k []) := by
  apply h.buf _ (by omega)
  rw [Nat.add_sub_cancel, List.getElem?_eq_getElem hk, List.getD_eq_getElem?_getD, List.getElem?_eq_getElem hk]
  rfl

theorem dollars_eq (b : Str) :
    (List.range' 1 (Awk.getNF ' ' b)).map (fun i => Awk.dollar ' ' b i) = Awk.fields ' ' b := by
  rw [Awk.C41_NF]
  apply List.ext_getElem?
  intro i
  rw [List.getElem?_map]
  by_cases hi : i < (Awk.fields ' ' b).length
  · rw [List.getElem?_range' hi, show 1 + 1 * i = i + 1 from by omega, Option.map_some, (Awk.C41_dollar ' ' b).2 i, List.getElem?_eq_getElem hi]
    rfl
  · rw [List.getElem?_eq_none (by simp; omega), List.getElem?_eq_none (by omega)]
    rfl

theorem at_flds {ls : List Str} {k : Nat} {s : Stream} (h : At ls (k + 1) s) (hk : k < ls.length) :
    s.flds = some (Awk.fields ' ' (ls.getD k [])) := by
  unfold Stream.flds
  rw [h.isOpen, at_buf h hk]
  dsimp only
  rw [dollars_eq]

theorem at_first {ls : List Str} {k : Nat} {s : Stream} (h : At ls (k + 1) s) (hk : k < ls.length) :
    s.first = some ((Awk.fields ' ' (ls.getD k [])).headD []) := by
  unfold Stream.first
  rw [h.isOpen, at_buf h hk]
  dsimp only
  rw [(Awk.C41_dollar ' ' _).2 0]
  cases Awk.fields ' ' (ls.getD k []) <;> rfl

/-- The corpus: source lines, target lines, lines of the file with counts. -/
structure Corpus where
  src : List Str
  trg : List Str
  cnt : Option (List Str)

/-- Every line is a line, and there are enough target sentences and counts. -/
structure Corpus.Ok (C : Corpus) : Prop where
  lsrc : ∀ l ∈ C.src, Line l
  ltrg : ∀ l ∈ C.trg, Line l
  lcnt : ∀ lc, C.cnt = some lc → ∀ l ∈ lc, Line l
  trg : C.src.length ≤ C.trg.length
  cnt : ∀ lc, C.cnt = some lc → C.src.length ≤ lc.length

/-- `a`, `b`, `c` lines have been read from the three files. -/
structure Pos (C : Corpus) (a b c : Nat) (st : State) : Prop where
  src : At C.src a st.src
  trg : At C.trg b st.trg
  cfe : st.countFileExists = C.cnt.isSome
  cnt : ∀ lc, C.cnt = some lc → At lc c st.cnt

theorem nextLine_pos {C : Corpus} (hC : C.Ok) {k : Nat} {st : State} (h : Pos C k k k st) (hk : k < C.src.length) :
    ∃ st', nextLine st = (true, st') ∧ Pos C (k + 1) (k + 1) (k + 1) st' ∧ st'.cur = st.cur + 1 ∧ st'.ns = st.ns ∧
      st'.cont = st.cont ∧ st'.counts = st.counts := by
  obtain ⟨s, hs1, hs2⟩ := at_getln hC.lsrc h.src hk
  obtain ⟨t, ht1, ht2⟩ := at_getln hC.ltrg h.trg (Nat.lt_of_lt_of_le hk hC.trg)
  unfold nextLine nextTrg nextCount
  rw [hs1]
  dsimp only
  rw [ht1]
  dsimp only
  rw [h.cfe]
  cases hc : C.cnt with
  | none =>
    simp only [Option.isSome_none, Bool.false_eq_true, if_false]
    exact ⟨_, rfl, ⟨hs2, ht2, by rw [hc]; rfl, fun lc hlc => by rw [hc] at hlc; cases hlc⟩, rfl, rfl, rfl, rfl⟩
  | some lc =>
    obtain ⟨c, hc1, hc2⟩ := at_getln (hC.lcnt lc hc) (h.cnt lc hc) (Nat.lt_of_lt_of_le hk (hC.cnt lc hc))
    simp only [Option.isSome_some, if_true]
    rw [hc1]
    refine ⟨_, rfl, ⟨hs2, ht2, by rw [hc]; rfl, fun lc' hlc => ?_⟩, rfl, rfl, rfl, rfl⟩
    rw [hc] at hlc
    cases hlc
    exact hc2

/-- Positioned at pair `cur`. -/
structure Ready (C : Corpus) (st : State) : Prop where
  ns : st.ns = C.src.length
  cur : st.cur < C.src.length
  pos : Pos C (st.cur + 1) (st.cur + 1) (st.cur + 1) st

theorem rewind_ready {C : Corpus} (hC : C.Ok) {a b c : Nat} {st : State} (h : Pos C a b c st)
    (hns : st.ns = C.src.length) (h0 : 0 < C.src.length) :
    Ready C (rewindFiles st) ∧ (rewindFiles st).cur = 0 ∧ (rewindFiles st).cont = st.cont ∧
      (rewindFiles st).counts = st.counts := by
  unfold rewindFiles
  obtain ⟨st', h1, h2, h3, h4, h5, h6⟩ := nextLine_pos hC
    (st := { st with src := st.src.rwd, trg := st.trg.rwd, cnt := st.cnt.rwd }) (k := 0)
    ⟨at_rwd h.src, at_rwd h.trg, h.cfe, fun lc hlc => at_rwd (h.cnt lc hlc)⟩ h0
  rw [h1]
  dsimp only
  refine ⟨⟨h4.trans hns, h0, ⟨h2.src, h2.trg, h2.cfe, h2.cnt⟩⟩, rfl, h5, h6⟩

theorem seek_ready {C : Corpus} (hC : C.Ok) {n : Nat} (hn : n < C.src.length) {st : State} (h : Ready C st)
    (hc : st.cur < n) :
    Ready C (seek n st) ∧ (seek n st).cur = n ∧ (seek n st).cont = st.cont ∧ (seek n st).counts = st.counts := by
  induction hd : n - st.cur generalizing st with
  | zero => omega
  | succ d ih =>
    obtain ⟨st', h1, h2, h3, h4, h5, h6⟩ := nextLine_pos hC h.pos (by omega)
    have hr : Ready C st' := ⟨h4.trans h.ns, by omega, by rw [h3]; exact h2⟩
    rw [seek]
    split
    · rename_i st2 he
      rw [h1] at he
      cases he
      by_cases hcur : st'.cur = n
      · rw [if_pos hcur]
        exact ⟨hr, hcur, h5, h6⟩
      · rw [if_neg hcur]
        obtain ⟨k1, k2, k3, k4⟩ := ih hr (by omega) (by omega)
        exact ⟨k1, k2, k3.trans h5, k4.trans h6⟩
    · rename_i st2 he
      rw [h1] at he
      cases he

theorem position_ready {C : Corpus} (hC : C.Ok) {n : Nat} (hn : n < C.src.length) {st : State} (h : Ready C st) :
    Ready C (position st n) ∧ (position st n).cur = n ∧ (position st n).cont = st.cont ∧
      (position st n).counts = st.counts := by
  unfold position
  dsimp only
  by_cases hlt : n < st.cur
  · rw [if_pos hlt]
    obtain ⟨r1, r2, r3, r4⟩ := rewind_ready hC h.pos h.ns (by omega)
    by_cases h0 : (rewindFiles st).cur ≠ n
    · rw [if_pos h0]
      obtain ⟨k1, k2, k3, k4⟩ := seek_ready hC hn r1 (by omega)
      exact ⟨k1, k2, k3.trans r3, k4.trans r4⟩
    · rw [if_neg h0]
      exact ⟨r1, by omega, r3, r4⟩
  · rw [if_neg hlt]
    by_cases h0 : st.cur ≠ n
    · rw [if_pos h0]
      exact seek_ready hC hn h (by omega)
    · rw [if_neg h0]
      exact ⟨h, by omega, rfl, rfl⟩

/-! ### Specification -/

/-- The count written in the `n`-th line of the file with counts; 1 if there is no such file. -/
def countAt (atof : Str → Rat) (C : Corpus) (n : Nat) : Rat :=
  match C.cnt with
  | none => 1
  | some lc => atof ((Awk.fields ' ' (lc.getD n [])).headD [])

/-- The `n`-th sentence pair of the files: the words of the `n`-th lines. -/
def pairAt (atof : Str → Rat) (C : Corpus) (n : Nat) : Pair :=
  (Awk.fields ' ' (C.src.getD n []), Awk.fields ' ' (C.trg.getD n []), countAt atof C n)

/-- The sentence pairs of the files. -/
def filePairs (atof : Str → Rat) (C : Corpus) : List Pair := (List.range C.src.length).map (pairAt atof C)

/-- The handler holds the sentence pairs of the corpus followed by the added ones. -/
structure Holds (atof : Str → Rat) (C : Corpus) (st : State) (db : List Pair) : Prop where
  ns : st.ns = C.src.length
  ready : 0 < C.src.length → Ready C st
  len : st.counts.length = st.cont.length
  db : db = filePairs atof C ++ (st.cont.zip st.counts).map fun x => (x.1.1, x.1.2, x.2)

theorem holds_length {atof : Str → Rat} {C : Corpus} {st : State} {db : List Pair} (h : Holds atof C st db) :
    numSentPairs st = db.length := by
  unfold numSentPairs
  rw [h.db, h.ns]
  simp only [filePairs, List.length_append, List.length_map, List.length_range, List.length_zip, h.len]
  omega

theorem nth_holds {atof : Str → Rat} {C : Corpus} (hC : C.Ok) {st : State} {db : List Pair} (h : Holds atof C st db)
    (n : Nat) : ∃ st', nthSentPair atof st n = some (st', db[n]?) ∧ Holds atof C st' db := by
  unfold nthSentPair
  rw [holds_length h]
  by_cases hn : db.length ≤ n
  · rw [if_pos hn, List.getElem?_eq_none hn]
    exact ⟨st, rfl, h⟩
  · rw [if_neg hn, h.ns]
    have hfl : (filePairs atof C).length = C.src.length := by simp [filePairs]
    by_cases hf : n < C.src.length
    · rw [if_pos hf]
      obtain ⟨p1, p2, p3, p4⟩ := position_ready hC hf (h.ready (by omega))
      unfold nthFromFiles
      dsimp only
      have hpos := p1.pos
      rw [p2] at hpos
      rw [at_flds hpos.src hf, at_flds hpos.trg (Nat.lt_of_lt_of_le hf hC.trg)]
      have hcc : curCount atof (position st n) = some (countAt atof C n) := by
        unfold curCount countAt
        rw [hpos.cfe]
        cases hc : C.cnt with
        | none => rfl
        | some lc =>
          dsimp only
          rw [Option.isSome_some, if_pos rfl, at_first (hpos.cnt lc hc) (Nat.lt_of_lt_of_le hf (hC.cnt lc hc))]
          rfl
      rw [hcc]
      refine ⟨position st n, ?_, ⟨p1.ns, fun _ => p1, by rw [p3, p4]; exact h.len, by rw [p3, p4]; exact h.db⟩⟩
      have hdb : db[n]? = some (pairAt atof C n) := by
        rw [h.db, List.getElem?_append_left (by omega)]
        unfold filePairs
        rw [List.getElem?_map, List.getElem?_range hf]
        rfl
      rw [hdb]
      rfl
    · rw [if_neg hf]
      have hlen := holds_length h
      unfold numSentPairs at hlen
      rw [h.ns] at hlen
      have hi : n - C.src.length < st.cont.length := by omega
      have hi2 : n - C.src.length < st.counts.length := by rw [h.len]; exact hi
      refine ⟨st, ?_, h⟩
      rw [List.getElem?_eq_getElem hi, List.getElem?_eq_getElem hi2, h.db,
        List.getElem?_append_right (by omega), hfl, List.getElem?_map, List.getElem?_eq_getElem (by simp; omega)]
      simp

theorem add_holds {atof : Str → Rat} {C : Corpus} {st : State} {db : List Pair} (h : Holds atof C st db) (p : Pair) :
    Holds atof C (addSentPair st p).1 (db ++ [p]) ∧ (addSentPair st p).2 = (db.length, db.length) := by
  have hl := holds_length h
  unfold numSentPairs at hl
  unfold addSentPair
  refine ⟨⟨h.ns, fun h0 => ⟨(h.ready h0).ns, (h.ready h0).cur, ⟨(h.ready h0).pos.src, (h.ready h0).pos.trg,
    (h.ready h0).pos.cfe, (h.ready h0).pos.cnt⟩⟩, ?_, ?_⟩, ?_⟩
  · simp [h.len]
  · dsimp only
    rw [List.zip_append h.len.symm, List.map_append, h.db, List.append_assoc]
    rfl
  · rw [hl]

/-! ### Reading -/

theorem readLoop_ok {C : Corpus} (hC : C.Ok) {k : Nat} {st : State} (h : Pos C k k 0 st) (hk : k ≤ C.src.length) :
    ∃ st' b, readLoop st = (true, st') ∧ Pos C C.src.length b 0 st' ∧ st'.ns = st.ns + (C.src.length - k) ∧
      st'.cont = st.cont ∧ st'.counts = st.counts ∧ st'.cur = st.cur := by
  induction hd : C.src.length - k generalizing k st with
  | zero =>
    have hk' : k = C.src.length := by omega
    rw [readLoop]
    split
    · rename_i s he
      rw [at_end h.src (by omega)] at he
      cases he
      exact ⟨_, k, rfl, ⟨by rw [← hk']; exact h.src, h.trg, h.cfe, h.cnt⟩, by simp, rfl, rfl, rfl⟩
    · rename_i s he
      rw [at_end h.src (by omega)] at he
      cases he
  | succ d ih =>
    obtain ⟨s, hs1, hs2⟩ := at_getln hC.lsrc h.src (by omega)
    obtain ⟨t, ht1, ht2⟩ := at_getln hC.ltrg h.trg (Nat.lt_of_lt_of_le (by omega) hC.trg)
    rw [readLoop]
    split
    · rename_i s' he
      rw [hs1] at he
      cases he
    · rename_i s' he
      rw [hs1] at he
      cases he
      rw [ht1]
      dsimp only
      obtain ⟨st', b, k1, k2, k3, k4, k5, k6⟩ := ih (k := k + 1) (st := { st with src := s, trg := t, ns := st.ns + 1 })
        ⟨hs2, ht2, h.cfe, h.cnt⟩ (by omega) (by omega)
      exact ⟨st', b, k1, k2, by rw [k3]; dsimp only; omega, k4, k5, k6⟩

/-- The three files with the lines of the corpus. -/
def Corpus.cfile (C : Corpus) : Option Str := C.cnt.map text

theorem read_holds (atof : Str → Rat) {C : Corpus} (hC : C.Ok) (st : State) :
    ∃ st', readSentencePairs st (some (text C.src)) (some (text C.trg)) C.cfile =
        (st', some (0, lastIdx C.src.length)) ∧ Holds atof C st' (filePairs atof C) := by
  unfold readSentencePairs
  dsimp only
  obtain ⟨s, hs1, hs2⟩ := at_open st.clear.src C.src
  obtain ⟨t, ht1, ht2⟩ := at_open st.clear.trg C.trg
  rw [hs1]
  dsimp only
  rw [ht1]
  dsimp only
  obtain ⟨st0, hst0⟩ : ∃ st0, st0 = openCounts { st.clear with src := s, trg := t } C.cfile := ⟨_, rfl⟩
  rw [← hst0]
  have h0 : Pos C 0 0 0 st0 ∧ st0.ns = 0 ∧ st0.cont = [] ∧ st0.counts = [] ∧ st0.cur = 0 := by
    rw [hst0]
    unfold openCounts Corpus.cfile
    cases hc : C.cnt with
    | none => exact ⟨⟨hs2, ht2, by rw [hc]; rfl, fun lc hlc => by rw [hc] at hlc; cases hlc⟩, rfl, rfl, rfl, rfl⟩
    | some lc =>
      refine ⟨⟨hs2, ht2, by rw [hc]; rfl, fun lc' hlc => ?_⟩, rfl, rfl, rfl, rfl⟩
      rw [hc] at hlc
      cases hlc
      exact ⟨rfl, rfl, rfl, fun l h0 => absurd h0 (Nat.lt_irrefl 0)⟩
  obtain ⟨st1, b, k1, k2, k3, k4, k5, k6⟩ := readLoop_ok hC h0.1 (Nat.zero_le _)
  rw [k1]
  dsimp only
  have hns : st1.ns = C.src.length := by rw [k3, h0.2.1]; omega
  rw [hns]
  refine ⟨_, rfl, ?_⟩
  by_cases hz : 0 < C.src.length
  · obtain ⟨r1, r2, r3, r4⟩ := rewind_ready hC k2 hns hz
    refine ⟨r1.ns, fun _ => r1, by rw [r3, r4, k4, k5, h0.2.2.1, h0.2.2.2.1]; rfl, ?_⟩
    rw [r3, r4, k4, k5, h0.2.2.1, h0.2.2.2.1]
    simp
  · have hr : (rewindFiles st1).ns = st1.ns ∧ (rewindFiles st1).cont = st1.cont ∧ (rewindFiles st1).counts = st1.counts := by
      unfold rewindFiles nextLine
      rw [at_end (at_rwd k2.src) (by omega)]
      exact ⟨rfl, rfl, rfl⟩
    refine ⟨hr.1.trans hns, fun h => absurd h hz, by rw [hr.2.1, hr.2.2, k4, k5, h0.2.2.1, h0.2.2.2.1]; rfl, ?_⟩
    rw [hr.2.1, hr.2.2, k4, k5, h0.2.2.1, h0.2.2.2.1]
    simp

end Thot.SentHandler
