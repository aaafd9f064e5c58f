import Verif.Dict.Keys
/-! C215: the dictionary filled at run time. C216: the dictionary read from a file. C217: the dictionary in a database. -/
namespace Thot.Dict
open Thot.Awk (Str fields)
open Thot.Desc (linesOf)

/-! ### C215 -/

section
variable {S : Type}

def isClear : Op S → Bool
  | .clear => true
  | .add _ _ _ _ => false

/-- The options added since the last clearing, oldest first. -/
def live : List (Op S) → List (Phrase × Phrase × (S × Str))
  | [] => []
  | .clear :: h => live h
  | .add s t v i :: h => if h.any isClear then live h else (s, t, (v, i)) :: live h

theorem live_snoc (h : List (Op S)) (o : Op S) : live (h ++ [o]) = match o with
    | .clear => []
    | .add s t v i => live h ++ [(s, t, (v, i))] := by
  induction h with
  | nil => cases o <;> simp [live]
  | cons a h ih =>
    rw [List.cons_append]
    cases a with
    | clear => rw [live, ih]; cases o <;> simp [live]
    | add s t v i =>
      rw [live]
      cases o with
      | clear => rw [if_pos (by simp [isClear]), ih]
      | add s' t' v' i' =>
        rw [live]
        have e : (h ++ [Op.add s' t' v' i']).any isClear = h.any isClear := by simp [isClear]
        rw [e]
        by_cases hc : h.any isClear = true
        · rw [if_pos hc, if_pos hc, ih]
        · rw [if_neg hc, if_neg hc, ih]; rfl

theorem run_eq (h : List (Op S)) : run h = build (live h) := by
  induction h using List.reverseRecOn with
  | nil => rfl
  | append_singleton h o ih =>
    have e : run (h ++ [o]) = step (run h) o := by simp [run, List.foldl_append]
    rw [e, live_snoc, ih]
    cases o with
    | clear => rfl
    | add s t v i =>
      show _ = build (live h ++ [(s, t, (v, i))])
      rw [build_snoc]; rfl

/-- **C215.** For every history of additions and clearings: the score and the information of a pair are those of its last
addition since the last clearing, and a pair that was not added since has the smoothing score, no information and is
reported as not found; the options of a phrase are the targets added for it since the last clearing, without
repetitions and in increasing order. -/
theorem C215_history (zero : S) (h : List (Op S)) (s t : Phrase) :
    scoreFly zero (run h) s t = ((lastOf s t (live h)).map Prod.fst).getD zero ∧
    (info (run h) s t).1 = ((lastOf s t (live h)).map Prod.snd).getD [] ∧
    ((info (run h) s t).2 = true ↔ ∃ v, (s, t, v) ∈ live h) ∧
    (options (run h) s).Pairwise (· < ·) ∧ (t ∈ options (run h) s ↔ ∃ v, (s, t, v) ∈ live h) := by
  have hs := lastOf_isSome s t (live h)
  unfold scoreFly info
  rw [run_eq, find_build, mem_options, find_build, hs]
  refine ⟨?_, ?_, ?_, options_sorted (build_ok _) s, Iff.rfl⟩
  · cases lastOf s t (live h) <;> rfl
  · cases lastOf s t (live h) <;> rfl
  · rw [← hs]
    cases lastOf s t (live h) <;> simp

/-- An addition is seen at once, replaces the previous one and does not touch the other pairs. -/
theorem C215_add (zero : S) (h : List (Op S)) (s t : Phrase) (v : S) (i : Str) (s' t' : Phrase) :
    scoreFly zero (run (h ++ [.add s t v i])) s' t' = (if s' = s ∧ t' = t then v else scoreFly zero (run h) s' t') ∧
    info (run (h ++ [.add s t v i])) s' t' = (if s' = s ∧ t' = t then (i, true) else info (run h) s' t') := by
  have e : run (h ++ [.add s t v i]) = insertEntry (run h) s t (v, i) := by simp [run, List.foldl_append, step]
  have hok : Ok (run h) := by rw [run_eq]; exact build_ok _
  unfold scoreFly info
  rw [e, find_insert hok]
  by_cases hc : s' = s ∧ t' = t
  · simp only [if_pos hc, and_self]
  · simp only [if_neg hc, and_self]

end

def wA : Str := "a".toList
def wB : Str := "b".toList
def wC : Str := "c".toList

example : live [Op.add [wA] [wC] 1 [], .clear, .add [wA] [wC] 2 [], .add [wA] [wB] 3 wA, .add [wA] [wC] 4 wB] =
    [([wA], [wC], (2, [])), ([wA], [wB], (3, wA)), ([wA], [wC], (4, wB))] := by decide +kernel
example : options (run [Op.add [wA] [wC] 1 [], .clear, .add [wA] [wC] 2 [], .add [wA] [wB] 3 wA, .add [wA] [wC] 4 wB]) [wA] =
    [[wB], [wC]] := by decide +kernel

/-! ### C216 -/

section
variable {S : Type}

/-- A line is text of one line. -/
def IsLine (l : Str) : Prop := ∀ c ∈ l, c ≠ '\n' ∧ c ≠ '\x00'
/-- The text of a file with the given lines. -/
def text (ls : List Str) : Str := ls.flatMap fun l => l ++ ['\n']

/-- Specification: the entries of the lines of a file, other lines being skipped. -/
inductive Entries : List Str → List (Phrase × Phrase × Str) → Prop
  | nil : Entries [] []
  | entry {l s t x ls es} (h : Entry l s t x) (r : Entries ls es) : Entries (l :: ls) ((s, t, x) :: es)
  | skip {l ls es} (h : ∀ s t x, ¬ Entry l s t x) (r : Entries ls es) : Entries (l :: ls) es

/-- **C216 (entries).** `extractEntryInfo` succeeds on the lines `source ||| target ||| score` and on no others, and
gives their parts. -/
theorem C216_entry (l : Str) (s t : Phrase) (x : Str) : extractEntry l = (s, t, some x) ↔ Entry l s t x := extract_iff l s t x

theorem C216_entries_exist (ls : List Str) : ∃ es, Entries ls es := by
  induction ls with
  | nil => exact ⟨[], .nil⟩
  | cons l ls ih =>
    obtain ⟨es, h⟩ := ih
    by_cases hl : ∃ s t x, Entry l s t x
    · obtain ⟨s, t, x, he⟩ := hl
      exact ⟨_, .entry he h⟩
    · exact ⟨es, .skip (fun s t x he => hl ⟨s, t, x, he⟩) h⟩

/-- Score and options that a list of entries (in the order of the file) defines. -/
def specScore (atof : Str → S) (smooth : S) (es : List (Phrase × Phrase × Str)) (s t : Phrase) : S :=
  ((lastOf s t es).map atof).getD smooth

/-- The full property: for every file, the dictionary is that of its entries. -/
def C216_full : Prop := ∀ (S : Type) (atof : Str → S) (smooth : S) (ls : List Str) (es : List (Phrase × Phrase × Str)),
  (∀ l ∈ ls, IsLine l) → Entries ls es → ∀ s t : Phrase,
    score smooth (load atof (text ls)) s t = some (specScore atof smooth es s t) ∧
    (t ∈ options (load atof (text ls)) s ↔ ∃ x, (s, t, x) ∈ es)

/-- False of the code: a line that is not an entry adds an option with a score that was never assigned. -/
theorem C216_counterexample : ¬ C216_full := by
  intro h
  have hn : ∀ s t x, ¬ Entry wA s t x := by
    rw [← extract_none]; decide +kernel
  have := (h Nat (fun _ => 0) 0 [wA] [] (by unfold IsLine; decide) (.skip hn .nil) [wA] []).1
  revert this
  decide +kernel

theorem load_eq (atof : Str → S) (ls : List Str) (hl : ∀ l ∈ ls, IsLine l) : load atof (text ls) =
    build (ls.map fun l => ((extractEntry l).1, (extractEntry l).2.1, (extractEntry l).2.2.map atof)) := by
  unfold load build text
  rw [Desc.linesOf_text ls hl, List.foldl_map]

theorem entries_map {ls : List Str} {es : List (Phrase × Phrase × Str)} (h : Entries ls es) (hw : ∀ l ∈ ls, ∃ s t x, Entry l s t x) :
    ls.map extractEntry = es.map fun e => (e.1, e.2.1, some e.2.2) := by
  induction h with
  | nil => rfl
  | entry he r ih =>
    rw [List.map_cons, List.map_cons, (extract_iff _ _ _ _).2 he, ih (fun l hl => hw l (List.mem_cons_of_mem _ hl))]
  | skip he r ih =>
    obtain ⟨s, t, x, hc⟩ := hw _ List.mem_cons_self
    exact absurd hc (he s t x)

theorem lastOf_map {V W : Type} (f : V → W) (s t : Phrase) (es : List (Phrase × Phrase × V)) :
    lastOf s t (es.map fun e => (e.1, e.2.1, f e.2.2)) = (lastOf s t es).map f := by
  induction es using List.reverseRecOn with
  | nil => rfl
  | append_singleton es e ih =>
    rw [List.map_append]
    show lastOf s t (_ ++ [(e.1, e.2.1, f e.2.2)]) = _
    rw [lastOf_snoc, lastOf_snoc, ih]
    by_cases hc : e.1 = s ∧ e.2.1 = t
    · simp only [if_pos hc, Option.map_some]
    · simp only [if_neg hc]

/-- **C216, what holds**: when every line is an entry, the score of a pair is that of its last line (the smoothing score
when it has none) and the options of a phrase are exactly its targets, in increasing order. -/
theorem C216_load_partial (atof : Str → S) (smooth : S) (ls : List Str) (es : List (Phrase × Phrase × Str))
    (hl : ∀ l ∈ ls, IsLine l) (hw : ∀ l ∈ ls, ∃ s t x, Entry l s t x) (he : Entries ls es) (s t : Phrase) :
    score smooth (load atof (text ls)) s t = some (specScore atof smooth es s t) ∧
    (options (load atof (text ls)) s).Pairwise (· < ·) ∧
    (t ∈ options (load atof (text ls)) s ↔ ∃ x, (s, t, x) ∈ es) := by
  have e : load atof (text ls) = build (es.map fun e => (e.1, e.2.1, some (atof e.2.2))) := by
    rw [load_eq atof ls hl]
    congr 1
    have := congrArg (List.map fun (p : Phrase × Phrase × Option Str) => (p.1, p.2.1, p.2.2.map atof)) (entries_map he hw)
    rw [List.map_map, List.map_map] at this
    exact this
  have hlm := lastOf_map (fun x => some (atof x)) s t es
  unfold score specScore
  rw [e, find_build, mem_options, find_build, hlm, Option.isSome_map, lastOf_isSome]
  refine ⟨?_, options_sorted (build_ok _) s, Iff.rfl⟩
  cases lastOf s t es <;> rfl

end

/-! ### C217 -/

section
variable {S : Type}

def dbOf (prn : S → Str) (es : List (Phrase × Phrase × S)) : Db := es.foldl (fun db e => addDb prn db e.1 e.2.1 e.2.2) []

theorem dbOf_snoc (prn : S → Str) (es : List (Phrase × Phrase × S)) (e : Phrase × Phrase × S) :
    dbOf prn (es ++ [e]) = SMap.ins (dbOf prn es) (key e.1 e.2.1) (prn e.2.2) := by simp [dbOf, List.foldl_append, addDb]

theorem dbOf_sorted (prn : S → Str) (es : List (Phrase × Phrase × S)) : SMap.Sorted (dbOf prn es) := by
  induction es using List.reverseRecOn with
  | nil => exact SMap.sorted_nil
  | append_singleton es e ih => rw [dbOf_snoc]; exact SMap.sorted_ins ih _ _

theorem mem_dbOf (prn : S → Str) (es : List (Phrase × Phrase × S)) (k : Str) :
    k ∈ SMap.keys (dbOf prn es) ↔ ∃ e ∈ es, k = key e.1 e.2.1 := by
  induction es using List.reverseRecOn with
  | nil => simp [dbOf, SMap.keys]
  | append_singleton es e ih =>
    rw [dbOf_snoc, SMap.mem_keys_ins, ih]
    constructor
    · rintro (h | ⟨e', h, h2⟩)
      · exact ⟨e, by simp, h⟩
      · exact ⟨e', by simp [h], h2⟩
    · rintro ⟨e', h, h2⟩
      rcases List.mem_append.1 h with h | h
      · exact .inr ⟨e', h, h2⟩
      · rw [List.mem_singleton] at h; subst h; exact .inl h2

/-- All the words of the entries are printable. -/
def PlainEntries {V : Type} (es : List (Phrase × Phrase × V)) : Prop := ∀ e ∈ es, (∀ w ∈ e.1, Plain w) ∧ ∀ w ∈ e.2.1, Plain w

theorem get_dbOf (prn : S → Str) (es : List (Phrase × Phrase × S)) (hp : PlainEntries es) (s t : Phrase)
    (hs : ∀ w ∈ s, Plain w) (ht : ∀ w ∈ t, Plain w) : SMap.get (dbOf prn es) (key s t) = (lastOf s t es).map prn := by
  induction es using List.reverseRecOn with
  | nil => rfl
  | append_singleton es e ih =>
    have he := hp e (by simp)
    rw [dbOf_snoc, SMap.get_ins (dbOf_sorted prn es), lastOf_snoc, ih (fun e' h' => hp e' (by simp [h']))]
    by_cases hc : e.1 = s ∧ e.2.1 = t
    · rw [if_pos hc, if_pos (by rw [hc.1, hc.2])]; rfl
    · rw [if_neg hc, if_neg]
      intro hk
      have := key_inj hs he.1 ht he.2 hk
      exact hc ⟨this.1.symm, this.2.symm⟩

theorem optionsDb_dbOf (prn : S → Str) (es : List (Phrase × Phrase × S)) (hp : PlainEntries es) (s : Phrase)
    (hs : ∀ w ∈ s, Plain w) : ∃ opts, optionsDb (dbOf prn es) s = some opts ∧ opts.Pairwise (· < ·) ∧
      ∀ t, t ∈ opts ↔ ∃ v, (s, t, v) ∈ es := by
  unfold optionsDb scan
  rw [start_eq, fin_eq, scan_filter (dbOf_sorted prn es)]
  have hkeys : ∀ k ∈ (SMap.keys (dbOf prn es)).filter (fun k => decide (¬ k < pre s ++ ['\x01'] ∧ k < pre s ++ ['\x02'])),
      ∃ t v, (s, t, v) ∈ es ∧ k = key s t := by
    intro k hk
    rw [List.mem_filter] at hk
    obtain ⟨e, he, rfl⟩ := (mem_dbOf prn es k).1 hk.1
    have := (range_iff hs (hp e he).1).1 (of_decide_eq_true hk.2)
    exact ⟨e.2.1, e.2.2, by rw [← this]; exact he, by rw [← this]⟩
  let g : Str → Phrase := fun k => (decode (s.length + 1) k).getD []
  have hg : ∀ t v, (s, t, v) ∈ es → g (key s t) = t := by
    intro t v h
    show (decode (s.length + 1) (key s t)).getD [] = t
    rw [decode_key hs (hp _ h).2]
    rfl
  refine ⟨_, sequence_some _ g _ ?_, ?_, ?_⟩
  · intro k hk
    obtain ⟨t, v, h, rfl⟩ := hkeys k hk
    rw [hg t v h, decode_key hs (hp _ h).2]
  · rw [List.pairwise_map]
    have hsorted : ((SMap.keys (dbOf prn es)).filter (fun k => decide (¬ k < pre s ++ ['\x01'] ∧ k < pre s ++ ['\x02']))).Pairwise (· < ·) :=
      List.Pairwise.filter _ (dbOf_sorted prn es)
    refine List.Pairwise.imp_of_mem ?_ hsorted
    intro a b ha hb hab
    obtain ⟨t, v, h, rfl⟩ := hkeys a ha
    obtain ⟨t', v', h', rfl⟩ := hkeys b hb
    rw [hg t v h, hg t' v' h']
    rcases lt_trichotomy t t' with hl | hl | hl
    · exact hl
    · rw [hl] at hab; exact absurd hab (lt_irrefl _)
    · exfalso
      have h1 := suf_mono hl (fun w hw => ((hp _ h).2 w hw).2)
      have h2 : key s t' < key s t := by
        rw [key_eq, key_eq, append_lt_iff]
        exact List.cons_lt_cons_iff.2 (.inr ⟨rfl, h1⟩)
      exact lt_irrefl _ (lt_trans hab h2)
  · intro t
    rw [List.mem_map]
    constructor
    · rintro ⟨k, hk, rfl⟩
      obtain ⟨t, v, h, rfl⟩ := hkeys k hk
      rw [hg t v h]
      exact ⟨v, h⟩
    · rintro ⟨v, h⟩
      refine ⟨key s t, ?_, hg t v h⟩
      rw [List.mem_filter]
      refine ⟨(mem_dbOf prn es _).2 ⟨_, h, rfl⟩, ?_⟩
      exact decide_eq_true ((range_iff hs hs).2 rfl)

theorem tool_eq (atof : Str → S) (prn : S → Str) (ls : List Str) (es : List (Phrase × Phrase × Str)) (hl : ∀ l ∈ ls, IsLine l)
    (he : Entries ls es) : tool atof prn (text ls) = dbOf prn (es.map fun e => (e.1, e.2.1, atof e.2.2)) := by
  unfold tool dbOf text
  rw [Desc.linesOf_text ls hl, List.foldl_map]
  clear hl
  generalize ([] : Db) = db
  induction he generalizing db with
  | nil => rfl
  | entry h r ih =>
    rw [List.foldl_cons, List.foldl_cons, (extract_iff _ _ _ _).2 h]
    exact ih _
  | skip h r ih =>
    rw [List.foldl_cons, (extract_none _).2 h]
    exact ih _

/-- The full property: the database built by the tool from a file answers as the entries of the file, the scores
being printed and read again. -/
def C217_full : Prop := ∀ (S : Type) (atof : Str → S) (prn : S → Str) (rd : Str → S) (smooth : S) (ls : List Str)
  (es : List (Phrase × Phrase × Str)), (∀ l ∈ ls, IsLine l) → Entries ls es → ∀ s t : Phrase,
    scoreDb rd smooth (tool atof prn (text ls)) s t = specScore (fun x => rd (prn (atof x))) smooth es s t ∧
    ∃ opts, optionsDb (tool atof prn (text ls)) s = some opts ∧ (t ∈ opts ↔ ∃ x, (s, t, x) ∈ es)

/-- **C217, what holds**: for every file (lines that are not entries are skipped) whose entries have printable words only: the
score of a pair is that of its last entry, printed and read again, and the options of a phrase are exactly its targets,
in increasing order. -/
theorem C217_database_partial (atof : Str → S) (prn : S → Str) (rd : Str → S) (smooth : S) (ls : List Str)
    (es : List (Phrase × Phrase × Str)) (hl : ∀ l ∈ ls, IsLine l) (he : Entries ls es) (hp : PlainEntries es)
    (s t : Phrase) (hs : ∀ w ∈ s, Plain w) (ht : ∀ w ∈ t, Plain w) :
    scoreDb rd smooth (tool atof prn (text ls)) s t = specScore (fun x => rd (prn (atof x))) smooth es s t ∧
    ∃ opts, optionsDb (tool atof prn (text ls)) s = some opts ∧ opts.Pairwise (· < ·) ∧ ∀ t', t' ∈ opts ↔ ∃ x, (s, t', x) ∈ es := by
  have hp' : PlainEntries (es.map fun e => (e.1, e.2.1, atof e.2.2)) := by
    intro e h
    obtain ⟨e', h', rfl⟩ := List.mem_map.1 h
    exact hp e' h'
  rw [tool_eq atof prn ls es hl he]
  refine ⟨?_, ?_⟩
  · unfold scoreDb getScore specScore
    rw [get_dbOf prn _ hp' s t hs ht, lastOf_map]
    cases lastOf s t es <;> rfl
  · obtain ⟨opts, h1, h2, h3⟩ := optionsDb_dbOf prn _ hp' s hs
    refine ⟨opts, h1, h2, ?_⟩
    intro t'
    rw [h3]
    constructor
    · rintro ⟨v, hv⟩
      obtain ⟨e, h, hh⟩ := List.mem_map.1 hv
      simp only [Prod.mk.injEq] at hh
      exact ⟨e.2.2, by rw [← hh.1, ← hh.2.1]; exact h⟩
    · rintro ⟨x, hx⟩
      exact ⟨atof x, List.mem_map.2 ⟨_, hx, rfl⟩⟩

/-- **C217 (same answers).** When moreover every line is an entry, the database feature and the in-memory feature offer the same options
in the same order, and the score of the former is that of the latter printed and read again. -/
theorem C217_same (atof : Str → S) (prn : S → Str) (rd : Str → S) (smooth : S) (ls : List Str)
    (es : List (Phrase × Phrase × Str)) (hl : ∀ l ∈ ls, IsLine l) (hw : ∀ l ∈ ls, ∃ s t x, Entry l s t x) (he : Entries ls es)
    (hp : PlainEntries es) (s t : Phrase) (hs : ∀ w ∈ s, Plain w) (ht : ∀ w ∈ t, Plain w) :
    optionsDb (tool atof prn (text ls)) s = some (options (load atof (text ls)) s) ∧
    (t ∈ options (load atof (text ls)) s →
      score smooth (load atof (text ls)) s t = some (specScore atof smooth es s t) ∧
      (score smooth (load atof (text ls)) s t).map (fun v => rd (prn v)) = some (scoreDb rd smooth (tool atof prn (text ls)) s t)) ∧
    (t ∉ options (load atof (text ls)) s →
      score smooth (load atof (text ls)) s t = some smooth ∧ scoreDb rd smooth (tool atof prn (text ls)) s t = smooth) := by
  obtain ⟨a1, a2, a3⟩ := C216_load_partial atof smooth ls es hl hw he s t
  obtain ⟨b1, opts, b2, b3, b4⟩ := C217_database_partial atof prn rd smooth ls es hl he hp s t hs ht
  refine ⟨?_, ?_, ?_⟩
  · rw [b2]
    congr 1
    refine SMap.eq_of_sorted b3 a2 ?_
    intro t'
    rw [b4, (C216_load_partial atof smooth ls es hl hw he s t').2.2]
  · intro hm
    refine ⟨a1, ?_⟩
    rw [a3] at hm
    rw [a1, b1]
    unfold specScore
    rw [← lastOf_isSome] at hm
    cases hx : lastOf s t es with
    | none => rw [hx] at hm; cases hm
    | some x => rfl
  · intro hm
    rw [a3, ← lastOf_isSome] at hm
    rw [a1, b1]
    unfold specScore
    cases hx : lastOf s t es with
    | none => exact ⟨rfl, rfl⟩
    | some x => rw [hx] at hm; exact absurd rfl hm

theorem sizeDb_eq (db : Db) : sizeDb db = (SMap.keys db).length := by
  unfold sizeDb
  have : ∀ (l : List Str) (n : Nat), l.foldl (fun n _ => n + 1) n = n + l.length := by
    intro l
    induction l with
    | nil => intro n; rfl
    | cons a l ih => intro n; rw [List.foldl_cons, ih, List.length_cons]; omega
  rw [this]; omega

/-- **C217 (size).** The size the tool reports is the number of different pairs of the file. -/
theorem C217_size (atof : Str → S) (prn : S → Str) (ls : List Str)
    (es : List (Phrase × Phrase × Str)) (hl : ∀ l ∈ ls, IsLine l) (he : Entries ls es) (hp : PlainEntries es)
    (ps : List (Phrase × Phrase)) (hd : ps.Nodup) (hm : ∀ s t, (s, t) ∈ ps ↔ ∃ x, (s, t, x) ∈ es) :
    sizeDb (tool atof prn (text ls)) = ps.length := by
  rw [tool_eq atof prn ls es hl he, sizeDb_eq]
  have hps : ∀ p ∈ ps, (∀ w ∈ p.1, Plain w) ∧ ∀ w ∈ p.2, Plain w := by
    intro p h
    obtain ⟨x, hx⟩ := (hm p.1 p.2).1 h
    exact hp _ hx
  have hnd : (ps.map fun p => key p.1 p.2).Nodup := by
    unfold List.Nodup
    rw [List.pairwise_map]
    refine List.Pairwise.imp_of_mem ?_ hd
    intro a b ha hb hab he
    have := key_inj (hps a ha).1 (hps b hb).1 (hps a ha).2 (hps b hb).2 he
    exact hab (Prod.ext this.1 this.2)
  have hks : (SMap.keys (dbOf prn (es.map fun e => (e.1, e.2.1, atof e.2.2)))).Nodup :=
    List.Pairwise.imp (fun h => ne_of_lt h) (dbOf_sorted _ _)
  have hperm : (SMap.keys (dbOf prn (es.map fun e => (e.1, e.2.1, atof e.2.2)))).Perm (ps.map fun p => key p.1 p.2) := by
    rw [List.perm_ext_iff_of_nodup hks hnd]
    intro k
    rw [mem_dbOf, List.mem_map]
    constructor
    · rintro ⟨e, h, rfl⟩
      obtain ⟨e', h', rfl⟩ := List.mem_map.1 h
      exact ⟨(e'.1, e'.2.1), (hm _ _).2 ⟨_, h'⟩, rfl⟩
    · rintro ⟨p, h, rfl⟩
      obtain ⟨x, hx⟩ := (hm p.1 p.2).1 h
      exact ⟨_, List.mem_map.2 ⟨_, hx, rfl⟩, rfl⟩
  rw [hperm.length_eq, List.length_map]

end

/-- A word with a tab: fields of a file are separated by spaces only. -/
def wTab : Str := "b\tc".toList
def lTab : Str := "a ||| b\tc ||| 1".toList

theorem tab_tokens : StrProc.stringToStringVector "a \x01 b\tc".toList = [wA, sep, wB, wC] := by
  have h : StrProc.Tokens ("a \x01 b\tc".toList) [wA, sep, wB, wC] := by
    have h0 : StrProc.Tokens [] [] := .nil (by intro c hc; cases hc)
    have h1 : StrProc.Tokens "\tc".toList [wC] :=
      StrProc.Tokens.cons (b := ['\t']) (t := wC) (rest := []) (by unfold StrProc.Blanks; decide) (by unfold StrProc.IsWord; decide) (.inl rfl) h0
    have h2 : StrProc.Tokens " b\tc".toList [wB, wC] :=
      StrProc.Tokens.cons (b := [' ']) (t := wB) (rest := "\tc".toList) (by unfold StrProc.Blanks; decide) (by unfold StrProc.IsWord; decide) (.inr ⟨_, _, rfl, rfl⟩) h1
    have h3 : StrProc.Tokens " \x01 b\tc".toList [sep, wB, wC] :=
      StrProc.Tokens.cons (b := [' ']) (t := sep) (rest := " b\tc".toList) (by unfold StrProc.Blanks; decide) (by unfold StrProc.IsWord; decide) (.inr ⟨_, _, rfl, rfl⟩) h2
    exact StrProc.Tokens.cons (b := []) (t := wA) (rest := " \x01 b\tc".toList) (by unfold StrProc.Blanks; decide) (by unfold StrProc.IsWord; decide) (.inr ⟨_, _, rfl, rfl⟩) h3
  exact (StrProc.C15_tokens _).unique h

/-- False of the code: a target word with a tab comes back as two words. -/
theorem C217_counterexample : ¬ C217_full := by
  intro h
  have he : Entry lTab [wA] [wTab] "1".toList := by rw [← extract_iff]; decide +kernel
  obtain ⟨_, opts, h1, h2⟩ := h Nat (fun _ => 1) (fun _ => []) (fun _ => 1) 0 [lTab] [([wA], [wTab], "1".toList)]
    (by unfold IsLine; decide) (.entry he .nil) [wA] [wTab]
  have e : optionsDb (tool (fun _ => 1) (fun _ : Nat => []) (text [lTab])) [wA] = some [[wB, wC]] := by
    unfold optionsDb
    have : scan (StrProc.stringVectorToString ([wA] ++ [sep])) (StrProc.stringVectorToString ([wA] ++ [sepNext]))
        (tool (fun _ => 1) (fun _ : Nat => []) (text [lTab])) = ["a \x01 b\tc".toList] := by decide +kernel
    rw [this, sequence, sequence, decode, tab_tokens]
    rfl
  rw [e] at h1
  injection h1 with h1
  rw [← h1] at h2
  have := h2.2 ⟨_, List.mem_singleton.2 rfl⟩
  revert this
  decide

/-! A file with a repeated pair and two targets satisfies the hypotheses. -/

def exLines : List Str := ["a b ||| c ||| 1".toList, "a b ||| b c ||| 2".toList, "a b ||| c ||| 3".toList]
def exEntries : List (Phrase × Phrase × Str) :=
  [([wA, wB], [wC], "1".toList), ([wA, wB], [wB, wC], "2".toList), ([wA, wB], [wC], "3".toList)]

theorem ex_entries : Entries exLines exEntries := by
  refine .entry ?_ (.entry ?_ (.entry ?_ .nil)) <;> (rw [← extract_iff]; decide +kernel)
example : (∀ l ∈ exLines, IsLine l) ∧ PlainEntries exEntries := by
  unfold IsLine PlainEntries Plain; decide +kernel
example : ∀ l ∈ exLines, ∃ s t x, Entry l s t x := by
  intro l hl
  have h : (extractEntry l).2.2 ≠ none := by revert l; decide +kernel
  by_contra hc
  exact h ((extract_none l).2 fun s t x he => hc ⟨s, t, x, he⟩)
example : options (load (fun x => x) (text exLines)) [wA, wB] = [[wB, wC], [wC]] ∧
    score [] (load (fun x => x) (text exLines)) [wA, wB] [wC] = some "3".toList ∧
    sizeDb (tool (fun x => x) (fun x => x) (text exLines)) = 2 := by decide +kernel

end Thot.Dict
