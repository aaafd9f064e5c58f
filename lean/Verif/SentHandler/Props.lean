import Verif.SentHandler.Lemmas
/-!
# C110, C111, C112: the sentence handler

C110: whatever the order of the accesses and additions, the n-th pair is the n-th pair.
C111: result and range of reading a corpus.
C112: printing the sentence pairs and reading them back.
-/
namespace Thot.SentHandler

open Thot.Awk (Str)

/-! ### C110 -/

/-- The contents of the printed files: one line per pair. -/
def filesOf (fmt : Rat → Str) (db : List Pair) : Files :=
  (text (db.map fun p => joinWords p.1), text (db.map fun p => joinWords p.2.1), text (db.map fun p => fmt p.2.2))

/-- A call on a plain list of sentence pairs. -/
def specStep (fmt : Rat → Str) (db : List Pair) : Op → List Pair × Res
  | .add p => (db ++ [p], .range (db.length, db.length))
  | .nth n => (db, .pair db[n]?)
  | .src n => (db, .sent (db[n]?.map fun p => p.1))
  | .trg n => (db, .sent (db[n]?.map fun p => p.2.1))
  | .count n => (db, .cnt (db[n]?.map fun p => p.2.2))
  | .num => (db, .num db.length)
  | .print => (db, .files (filesOf fmt db))

/-- A sequence of calls on a plain list. -/
def specRun (fmt : Rat → Str) : List Pair → List Op → List Res
  | _, [] => []
  | db, o :: os => (specStep fmt db o).2 :: specRun fmt (specStep fmt db o).1 os

theorem printLoop_holds {atof : Str → Rat} (fmt : Rat → Str) {C : Corpus} (hC : C.Ok) {db : List Pair} (k n : Nat)
    (hk : n + k = db.length) {st : State} (h : Holds atof C st db) :
    ∃ st', printLoop atof fmt n k st = some (st', filesOf fmt (db.drop n)) ∧ Holds atof C st' db := by
  induction k generalizing n st with
  | zero =>
    refine ⟨st, ?_, h⟩
    rw [List.drop_eq_nil_of_le (by omega)]
    rfl
  | succ k ih =>
    obtain ⟨st1, h1, h2⟩ := nth_holds hC h n
    obtain ⟨st2, h3, h4⟩ := ih (n + 1) (by omega) h2
    refine ⟨st2, ?_, h4⟩
    have hn : n < db.length := by omega
    unfold printLoop
    rw [h1]
    dsimp only [Option.bind_some]
    rw [h3, List.drop_eq_getElem_cons hn, List.getElem?_eq_getElem hn]
    dsimp only [Option.map_some, Option.getD_some]
    unfold filesOf
    simp only [List.map_cons, text_cons]

theorem step_holds {atof : Str → Rat} (fmt : Rat → Str) {C : Corpus} (hC : C.Ok) {db : List Pair} {st : State}
    (h : Holds atof C st db) (o : Op) :
    ∃ st', step atof fmt st o = some (st', (specStep fmt db o).2) ∧ Holds atof C st' (specStep fmt db o).1 := by
  cases o with
  | add p =>
    obtain ⟨h1, h2⟩ := add_holds h p
    exact ⟨_, by dsimp only [step]; rw [h2]; rfl, h1⟩
  | nth n =>
    obtain ⟨st1, h1, h2⟩ := nth_holds hC h n
    exact ⟨st1, by dsimp only [step]; rw [h1]; rfl, h2⟩
  | src n =>
    obtain ⟨st1, h1, h2⟩ := nth_holds hC h n
    exact ⟨st1, by dsimp only [step]; rw [h1]; rfl, h2⟩
  | trg n =>
    obtain ⟨st1, h1, h2⟩ := nth_holds hC h n
    exact ⟨st1, by dsimp only [step]; rw [h1]; rfl, h2⟩
  | count n =>
    obtain ⟨st1, h1, h2⟩ := nth_holds hC h n
    exact ⟨st1, by dsimp only [step]; rw [h1]; rfl, h2⟩
  | num => exact ⟨st, by dsimp only [step]; rw [holds_length h]; rfl, h⟩
  | print =>
    obtain ⟨st1, h1, h2⟩ := printLoop_holds fmt hC (numSentPairs st) 0 (by rw [holds_length h]; omega) h
    refine ⟨st1, ?_, h2⟩
    unfold step printSentPairs
    rw [h1, List.drop_zero]
    rfl

theorem run_holds {atof : Str → Rat} (fmt : Rat → Str) {C : Corpus} (hC : C.Ok) (os : List Op) {db : List Pair}
    {st : State} (h : Holds atof C st db) : run atof fmt st os = some (specRun fmt db os) := by
  induction os generalizing st db with
  | nil => rfl
  | cons o os ih =>
    obtain ⟨st1, h1, h2⟩ := step_holds fmt hC h o
    unfold run
    rw [h1]
    dsimp only [Option.bind_some]
    rw [ih h2]
    rfl

/-- **C110**, full: for files with as many target as source lines, and any file of counts, source sentences are found
whatever the order in which they are asked for. -/
def C110_full : Prop :=
  ∀ (atof : Str → Rat) (C : Corpus) (st : State) (ns : List Nat),
    (∀ l ∈ C.src, Line l) → (∀ l ∈ C.trg, Line l) → (∀ lc, C.cnt = some lc → ∀ l ∈ lc, Line l) →
    C.src.length = C.trg.length →
    run atof (fun _ => []) (readSentencePairs st (some (text C.src)) (some (text C.trg)) C.cfile).1 (ns.map Op.src) =
      some (ns.map fun n => Res.sent (C.src[n]?.map (Awk.fields ' ')))

/-- **C110 (partial)**: if the file with counts, when there is one, has a line for every sentence pair, then after
reading a corpus (whatever the handler held before) any sequence of additions and accesses, in any order, behaves as
the list of the pairs of the files followed by the added ones, and nothing undefined happens. -/
theorem C110_random_access_partial (atof : Str → Rat) (fmt : Rat → Str) (C : Corpus) (hC : C.Ok) (st : State)
    (os : List Op) :
    run atof fmt (readSentencePairs st (some (text C.src)) (some (text C.trg)) C.cfile).1 os =
      some (specRun fmt (filePairs atof C) os) := by
  obtain ⟨st', h1, h2⟩ := read_holds atof hC st
  rw [h1]
  exact run_holds fmt hC os h2

/-- Three sentence pairs and one count. -/
def exCorpus : Corpus :=
  { src := [['a'], ['b'], ['c']], trg := [['x'], ['y'], ['z']], cnt := some [['1']] }

/-- With a file of counts that is too short, the second access returns a wrong sentence: the lines of the corpus were
consumed without moving the index. -/
theorem C110_counterexample : ¬ C110_full := by
  intro h
  have := h (fun _ => 1) exCorpus State.new [1, 0, 1, 2] (by decide) (by decide)
    (by intro lc hl; cases hl; decide) (by decide)
  revert this
  decide +kernel

/-! Non-vacuity of C110: blanks, an empty sentence, counts, an addition, accesses backwards and forwards. -/

def okCorpus : Corpus :=
  { src := [" a  b".toList, [], ['c']], trg := [['x'], ['y', ' ', 'z'], ['z']], cnt := some [['1'], ['2'], ['3'], ['4']] }

theorem okCorpus_ok : okCorpus.Ok :=
  ⟨by decide, by decide, by intro lc hl; cases hl; decide, by decide, by intro lc hl; cases hl; decide⟩

example : run (fun s => (s.length : Rat)) (fun _ => ['1'])
    (readSentencePairs State.new (some (text okCorpus.src)) (some (text okCorpus.trg)) okCorpus.cfile).1
    [.src 2, .src 0, .add ([['w']], [['v']], 5), .nth 1, .nth 3, .nth 4, .num] =
    some [.sent (some [['c']]), .sent (some [['a'], ['b']]), .range (3, 3), .pair (some ([], [['y'], ['z']], 1)),
      .pair (some ([['w']], [['v']], 5)), .pair none, .num 4] := by decide +kernel

/-! ### C111 -/

theorem readLoop_short {C : Corpus} (h1 : ∀ l ∈ C.src, Line l) (h2 : ∀ l ∈ C.trg, Line l)
    (hlt : C.trg.length < C.src.length) {k : Nat} {st : State} (hs : At C.src k st.src) (ht : At C.trg k st.trg)
    (hk : k ≤ C.trg.length) : (readLoop st).1 = false := by
  induction hd : C.trg.length - k generalizing k st with
  | zero =>
    obtain ⟨s, hs1, hs2⟩ := at_getln h1 hs (by omega)
    rw [readLoop]
    split
    · rename_i s' he
      rw [hs1] at he
      cases he
    · rw [at_end ht (by omega)]
  | succ d ih =>
    obtain ⟨s, hs1, hs2⟩ := at_getln h1 hs (by omega)
    obtain ⟨t, ht1, ht2⟩ := at_getln h2 ht (by omega)
    rw [readLoop]
    split
    · rename_i s' he
      rw [hs1] at he
      cases he
    · rename_i s' he
      rw [hs1] at he
      cases he
      rw [ht1]
      exact ih (k := k + 1) hs2 ht2 (by omega) (by omega)

/-- **C111**, full: reading succeeds exactly when there are as many source as target lines, and then the range goes
from the first to the last pair: its loop `for(n=first;n<=second;++n)` visits each pair once. -/
def C111_full : Prop :=
  ∀ (st : State) (src trg : List Str), (∀ l ∈ src, Line l) → (∀ l ∈ trg, Line l) → src.length < 2 ^ 32 →
    ((readSentencePairs st (some (text src)) (some (text trg)) none).2.isSome ↔ src.length = trg.length) ∧
    ∀ r, (readSentencePairs st (some (text src)) (some (text trg)) none).2 = some r →
      List.range' r.1 (r.2 + 1 - r.1) = List.range src.length

/-- **C111 (partial)**: reading fails when a file cannot be opened or the target has fewer lines than the source, and
succeeds otherwise; the range of a non-empty corpus visits each pair once, and so does the range of an added pair. -/
theorem C111_read_result_partial (st : State) (src trg : List Str) (h1 : ∀ l ∈ src, Line l) (h2 : ∀ l ∈ trg, Line l)
    (hlen : src.length < 2 ^ 32) (cf : Option Str) :
    ((readSentencePairs st (some (text src)) (some (text trg)) none).2.isSome ↔ src.length ≤ trg.length) ∧
    (∀ r, src ≠ [] → (readSentencePairs st (some (text src)) (some (text trg)) none).2 = some r →
      List.range' r.1 (r.2 + 1 - r.1) = List.range src.length) ∧
    (∀ tf, (readSentencePairs st none tf cf).2 = none) ∧ (∀ sf, (readSentencePairs st sf none cf).2 = none) ∧
    (∀ p, (addSentPair st p).2 = (numSentPairs st, numSentPairs st) ∧
      numSentPairs (addSentPair st p).1 = numSentPairs st + 1) := by
  refine ⟨?_, ?_, ?_, ?_, ?_⟩
  · by_cases hle : src.length ≤ trg.length
    · obtain ⟨st', e, _⟩ := read_holds (fun _ => 0) (C := ⟨src, trg, none⟩) ⟨h1, h2, (fun _ h => by cases h), hle, (fun _ h => by cases h)⟩ st
      have e' : readSentencePairs st (some (text src)) (some (text trg)) none = _ := e
      rw [e']
      simp [hle]
    · obtain ⟨s, hs1, hs2⟩ := at_open st.clear.src src
      obtain ⟨t, ht1, ht2⟩ := at_open st.clear.trg trg
      have := readLoop_short (C := ⟨src, trg, none⟩) h1 h2 (by dsimp only; omega) (k := 0)
        (st := openCounts { st.clear with src := s, trg := t } none) hs2 ht2 (Nat.zero_le _)
      unfold readSentencePairs
      dsimp only
      rw [hs1]
      dsimp only
      rw [ht1]
      dsimp only
      split
      · simp [hle]
      · rename_i he
        rw [he] at this
        cases this
  · intro r hne hr
    by_cases hle : src.length ≤ trg.length
    · obtain ⟨st', e, _⟩ := read_holds (fun _ => 0) (C := ⟨src, trg, none⟩) ⟨h1, h2, (fun _ h => by cases h), hle, (fun _ h => by cases h)⟩ st
      have e' : readSentencePairs st (some (text src)) (some (text trg)) none = _ := e
      rw [e'] at hr
      cases hr
      have hp : 0 < src.length := List.length_pos_iff.2 hne
      have hl : lastIdx src.length + 1 = src.length := by
        unfold lastIdx
        rw [show src.length + (2 ^ 32 - 1) = (src.length - 1) + 2 ^ 32 from by omega, Nat.add_mod_right,
          Nat.mod_eq_of_lt (by omega)]
        omega
      show List.range' 0 (lastIdx src.length + 1 - 0) = _
      rw [hl, List.range_eq_range']
      rfl
    · obtain ⟨s, hs1, hs2⟩ := at_open st.clear.src src
      obtain ⟨t, ht1, ht2⟩ := at_open st.clear.trg trg
      have := readLoop_short (C := ⟨src, trg, none⟩) h1 h2 (by dsimp only; omega) (k := 0)
        (st := openCounts { st.clear with src := s, trg := t } none) hs2 ht2 (Nat.zero_le _)
      unfold readSentencePairs at hr
      dsimp only at hr
      rw [hs1] at hr
      dsimp only at hr
      rw [ht1] at hr
      dsimp only at hr
      split at hr
      · cases hr
      · rename_i he
        rw [he] at this
        cases this
  · intro tf
    rfl
  · intro sf
    cases sf <;> rfl
  · intro p
    exact ⟨rfl, by unfold addSentPair numSentPairs; simp; omega⟩

/-- An empty corpus gives the range `(0, 2^32-1)`; extra target lines are not noticed. -/
theorem C111_counterexample : ¬ C111_full := by
  intro h
  have := (h State.new [] [['x']] (by decide) (by decide) (by decide)).1
  revert this
  decide +kernel

example : (readSentencePairs State.new (some []) (some []) none).2 = some (0, 4294967295) := by decide +kernel
example : (readSentencePairs State.new (some "a\nb\n".toList) (some "x\ny\n".toList) none).2 = some (0, 1) := by decide +kernel

/-! ### C112 -/

/-- A word: not empty, no blank, newline or NUL. -/
def Word (w : Str) : Prop := w ≠ [] ∧ ∀ c ∈ w, c ≠ ' ' ∧ c ≠ '\n' ∧ c ≠ '\x00'

theorem cut_word {w r : Str} (h : ∀ c ∈ w, c ≠ ' ') : Awk.cut ' ' (w ++ ' ' :: r) = w :: Awk.cut ' ' r := by
  induction w with
  | nil => simp [Awk.cut]
  | cons c w ih =>
    rw [List.cons_append, Awk.cut, if_neg (h c List.mem_cons_self), ih (fun x hx => h x (List.mem_cons_of_mem _ hx))]

theorem cut_last {w : Str} (h : ∀ c ∈ w, c ≠ ' ') : Awk.cut ' ' w = [w] := by
  induction w with
  | nil => simp [Awk.cut]
  | cons c w ih =>
    rw [Awk.cut, if_neg (h c List.mem_cons_self), ih (fun x hx => h x (List.mem_cons_of_mem _ hx))]

theorem fields_join {ws : List Str} (h : ∀ w ∈ ws, Word w) : Awk.fields ' ' (joinWords ws) = ws := by
  induction ws with
  | nil => simp [joinWords, Awk.fields, Awk.cut]
  | cons w ws ih =>
    have hw := h w List.mem_cons_self
    have hne : (!w.isEmpty) = true := by cases w with | nil => exact absurd rfl hw.1 | cons => rfl
    cases ws with
    | nil =>
      unfold joinWords Awk.fields
      rw [cut_last (fun c hc => (hw.2 c hc).1)]
      simp [hne]
    | cons v ws =>
      rw [joinWords]
      · have := ih (fun x hx => h x (List.mem_cons_of_mem _ hx))
        unfold Awk.fields at *
        rw [cut_word (fun c hc => (hw.2 c hc).1), List.filter_cons_of_pos (by simpa using hne), this]
      · simp

theorem line_join {ws : List Str} (h : ∀ w ∈ ws, Word w) : Line (joinWords ws) := by
  induction ws with
  | nil => intro c hc; cases hc
  | cons w ws ih =>
    have hw := h w List.mem_cons_self
    cases ws with
    | nil => intro c hc; exact (hw.2 c hc).2
    | cons v ws =>
      intro c hc
      rw [joinWords] at hc
      · rcases List.mem_append.1 hc with hc | hc
        · exact (hw.2 c hc).2
        · rcases List.mem_cons.1 hc with rfl | hc
          · decide
          · exact ih (fun x hx => h x (List.mem_cons_of_mem _ hx)) c hc
      · simp

/-- The corpus with the printed lines. -/
def printed (fmt : Rat → Str) (db : List Pair) : Corpus :=
  { src := db.map fun p => joinWords p.1
    trg := db.map fun p => joinWords p.2.1
    cnt := some (db.map fun p => fmt p.2.2) }

theorem printed_ok {fmt : Rat → Str} {db : List Pair} (hw : ∀ p ∈ db, (∀ w ∈ p.1, Word w) ∧ (∀ w ∈ p.2.1, Word w))
    (hf : ∀ p ∈ db, Word (fmt p.2.2)) : (printed fmt db).Ok := by
  refine ⟨?_, ?_, ?_, by simp [printed], ?_⟩
  · intro l hl
    obtain ⟨p, hp, rfl⟩ := List.mem_map.1 hl
    exact line_join (hw p hp).1
  · intro l hl
    obtain ⟨p, hp, rfl⟩ := List.mem_map.1 hl
    exact line_join (hw p hp).2
  · intro lc hlc l hl
    cases hlc
    obtain ⟨p, hp, rfl⟩ := List.mem_map.1 hl
    intro c hc
    exact ((hf p hp).2 c hc).2
  · intro lc hlc
    cases hlc
    simp [printed]

theorem printed_pairs {atof : Str → Rat} {fmt : Rat → Str} {db : List Pair}
    (hw : ∀ p ∈ db, (∀ w ∈ p.1, Word w) ∧ (∀ w ∈ p.2.1, Word w))
    (hf : ∀ p ∈ db, Word (fmt p.2.2) ∧ atof (fmt p.2.2) = p.2.2) : filePairs atof (printed fmt db) = db := by
  apply List.ext_getElem
  · simp [filePairs, printed]
  · intro i h1 h2
    have eg : (filePairs atof (printed fmt db))[i] = pairAt atof (printed fmt db) i := by simp [filePairs]
    rw [eg]
    have hm : db[i] ∈ db := List.getElem_mem h2
    unfold pairAt countAt printed
    dsimp only
    have e1 : (db.map fun p => joinWords p.1).getD i [] = joinWords db[i].1 := by
      rw [List.getD_eq_getElem?_getD, List.getElem?_map, List.getElem?_eq_getElem h2]; rfl
    have e2 : (db.map fun p => joinWords p.2.1).getD i [] = joinWords db[i].2.1 := by
      rw [List.getD_eq_getElem?_getD, List.getElem?_map, List.getElem?_eq_getElem h2]; rfl
    have e3 : (db.map fun p => fmt p.2.2).getD i [] = fmt db[i].2.2 := by
      rw [List.getD_eq_getElem?_getD, List.getElem?_map, List.getElem?_eq_getElem h2]; rfl
    have e4 : Awk.fields ' ' (fmt db[i].2.2) = [fmt db[i].2.2] :=
      fields_join (ws := [fmt db[i].2.2]) (fun w h => by rw [List.mem_singleton.1 h]; exact (hf _ hm).1)
    rw [e1, e2, e3, e4, fields_join (hw _ hm).1, fields_join (hw _ hm).2]
    simp only [List.headD_cons, (hf _ hm).2]

/-- **C112**: read a corpus, add any pairs, print the sentence pairs, and read the printed files into any handler: the same pairs, with the same counts, are found, in any order of
access. -/
theorem C112_round_trip (atof : Str → Rat) (fmt : Rat → Str) (db : List Pair) (C : Corpus) (hC : C.Ok) (st st2 : State)
    (added : List Pair) (hdb : db = filePairs atof C ++ added)
    (hw : ∀ p ∈ db, (∀ w ∈ p.1, Word w) ∧ (∀ w ∈ p.2.1, Word w))
    (hf : ∀ p ∈ db, Word (fmt p.2.2) ∧ atof (fmt p.2.2) = p.2.2) (os : List Op) :
    ∃ sf tf cf,
      run atof fmt (readSentencePairs st (some (text C.src)) (some (text C.trg)) C.cfile).1
        (added.map Op.add ++ [Op.print]) =
          some ((added.mapIdx fun i _ => Res.range (C.src.length + i, C.src.length + i)) ++ [Res.files (sf, tf, cf)]) ∧
      run atof fmt (readSentencePairs st2 (some sf) (some tf) (some cf)).1 os = some (specRun fmt db os) := by
  refine ⟨(filesOf fmt db).1, (filesOf fmt db).2.1, (filesOf fmt db).2.2,
    (C110_random_access_partial atof fmt C hC st _).trans ?_, ?_⟩
  · congr 1
    have key : ∀ (l : List Pair) (d : List Pair), specRun fmt d (l.map Op.add ++ [Op.print]) =
        (l.mapIdx fun i _ => Res.range (d.length + i, d.length + i)) ++ [Res.files (filesOf fmt (d ++ l))] := by
      intro l
      induction l with
      | nil => intro d; simp [specRun, specStep]
      | cons p l ih =>
        intro d
        rw [List.map_cons, List.cons_append, specRun]
        simp only [specStep]
        rw [ih, List.mapIdx_cons, List.append_assoc]
        simp only [List.length_append, List.length_cons, List.length_nil, List.cons_append, List.nil_append, Nat.add_zero]
        have : ∀ i, d.length + (0 + 1) + i = d.length + (i + 1) := fun i => by omega
        simp only [this]
    rw [key, hdb]
    simp [filePairs]
  · have := C110_random_access_partial atof fmt (printed fmt db) (printed_ok hw fun p hp => (hf p hp).1) st2 os
    rw [printed_pairs hw hf] at this
    exact this

/-- The hypotheses of C112 are met (one-character counts). -/
example : ∃ (atof : Str → Rat) (fmt : Rat → Str), ∀ p ∈ filePairs atof okCorpus ++ [([['w']], [], (1 : Rat))],
    ((∀ w ∈ p.1, Word w) ∧ (∀ w ∈ p.2.1, Word w)) ∧ Word (fmt p.2.2) ∧ atof (fmt p.2.2) = p.2.2 := by
  refine ⟨fun _ => 1, fun _ => ['1'], ?_⟩
  have : ∀ p ∈ filePairs (fun _ => 1) okCorpus ++ [([['w']], [], (1 : Rat))],
    ((∀ w ∈ p.1, w ≠ [] ∧ ∀ c ∈ w, c ≠ ' ' ∧ c ≠ '\n' ∧ c ≠ '\x00') ∧
      (∀ w ∈ p.2.1, w ≠ [] ∧ ∀ c ∈ w, c ≠ ' ' ∧ c ≠ '\n' ∧ c ≠ '\x00')) ∧ p.2.2 = 1 := by decide +kernel
  intro p hp
  exact ⟨(this p hp).1, (by unfold Word; decide : Word ['1']), (this p hp).2.symm⟩

end Thot.SentHandler
