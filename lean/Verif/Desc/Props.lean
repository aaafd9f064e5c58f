import Verif.Desc.Model
/-! C206–C208: names of model files and descriptors. -/
namespace Thot.Desc
open Thot.Awk (Str fields)
open Thot.SentHandler (joinWords Word fields_join line_join)

/-! ### C206: directories -/

theorem lastSlash_fold (p : Str) : ∀ (n : Nat), n ≤ p.length →
    match (List.range n).foldl (fun acc i => if p[i]? = some '/' then some i else acc) none with
    | none => ∀ i, i < n → p[i]? ≠ some '/'
    | some k => k < n ∧ p[k]? = some '/' ∧ ∀ i, k < i → i < n → p[i]? ≠ some '/' := by
  intro n
  induction n with
  | zero => intro _; simp
  | succ n ih =>
    intro hn
    have ih := ih (by omega)
    rw [List.range_succ, List.foldl_append]
    simp only [List.foldl_cons, List.foldl_nil]
    generalize (List.range n).foldl (fun acc i => if p[i]? = some '/' then some i else acc) none = acc at ih
    by_cases h : p[n]? = some '/'
    · rw [if_pos h]
      exact ⟨by omega, h, fun i h1 h2 => by omega⟩
    · rw [if_neg h]
      cases acc with
      | none =>
        intro i hi
        by_cases hin : i = n
        · subst hin; exact h
        · exact ih i (by omega)
      | some k =>
        obtain ⟨h1, h2, h3⟩ := ih
        refine ⟨by omega, h2, ?_⟩
        intro i h4 h5
        by_cases hin : i = n
        · subst hin; exact h
        · exact h3 i h4 (by omega)

/-- C206: a path is its directory, which is empty or ends in a slash, followed by a name without slashes. -/
theorem C206_dirname (p : Str) : ∃ base, p = dirName p ++ base ∧ '/' ∉ base ∧ (dirName p = [] ∨ ∃ d, dirName p = d ++ ['/']) := by
  unfold dirName
  by_cases h0 : p = []
  · rw [if_pos h0]; exact ⟨[], by simp [h0], by simp, Or.inl rfl⟩
  · rw [if_neg h0]
    have h := lastSlash_fold p p.length (Nat.le_refl _)
    rw [show (List.range p.length).foldl (fun acc i => if p[i]? = some '/' then some i else acc) none = lastSlash p from rfl] at h
    cases hl : lastSlash p with
    | none =>
      rw [hl] at h
      refine ⟨p, rfl, ?_, Or.inl rfl⟩
      intro hm
      obtain ⟨i, hi, he⟩ := List.getElem_of_mem hm
      exact h i hi (by rw [List.getElem?_eq_getElem hi, he])
    | some k =>
      rw [hl] at h
      obtain ⟨h1, h2, h3⟩ := h
      refine ⟨p.drop (k + 1), (List.take_append_drop _ _).symm, ?_, Or.inr ⟨p.take k, ?_⟩⟩
      · intro hm
        obtain ⟨i, hi, he⟩ := List.getElem_of_mem hm
        rw [List.getElem_drop] at he
        rw [List.length_drop] at hi
        exact h3 (k + 1 + i) (by omega) (by omega) (by rw [List.getElem?_eq_getElem (by omega), he])
      · rw [List.getElem?_eq_getElem h1] at h2
        simp only [Option.some.injEq] at h2
        show p.take (k + 1) = _
        rw [List.take_add_one, List.getElem?_eq_getElem h1, h2]; rfl

theorem split_unique {a b c d : Str} (h : a ++ '/' :: b = c ++ '/' :: d) (hb : '/' ∉ b) (hd : '/' ∉ d) : a = c ∧ b = d := by
  induction a generalizing c with
  | nil =>
    cases c with
    | nil => simpa using h
    | cons x c =>
      simp only [List.nil_append, List.cons_append, List.cons.injEq] at h
      rw [h.2] at hb
      exact absurd (by simp) hb
  | cons x a ih =>
    cases c with
    | nil =>
      simp only [List.nil_append, List.cons_append, List.cons.injEq] at h
      rw [← h.2] at hd
      exact absurd (by simp) hd
    | cons y c =>
      simp only [List.cons_append, List.cons.injEq] at h
      obtain ⟨h1, h2⟩ := ih h.2
      exact ⟨by rw [h.1, h1], h2⟩

theorem dirName_slash (d b : Str) (hb : '/' ∉ b) : dirName (d ++ '/' :: b) = d ++ ['/'] := by
  obtain ⟨base, h1, h2, h3⟩ := C206_dirname (d ++ '/' :: b)
  rcases h3 with h3 | ⟨d', h3⟩
  · rw [h3] at h1
    rw [List.nil_append] at h1
    rw [← h1] at h2
    exact absurd (by simp) h2
  · rw [h3] at h1 ⊢
    rw [List.append_assoc] at h1
    rw [(split_unique h1 hb h2).1]

theorem dirName_none (p : Str) (h : '/' ∉ p) : dirName p = [] := by
  obtain ⟨base, h1, h2, h3⟩ := C206_dirname p
  rcases h3 with h3 | ⟨d', h3⟩
  · exact h3
  · rw [h1, h3] at h
    exact absurd (by simp) h

/-- C206: absolute names of model files are kept; relative ones are taken from the directory of the descriptor (the current one if the name
of the descriptor has no directory). -/
theorem C206_absolutize (file : Str) :
    (∀ desc r, file = '/' :: r → absolutize desc file = file) ∧
    (∀ d b, '/' ∉ b → file ≠ [] → file.head? ≠ some '/' → absolutize (d ++ '/' :: b) file = d ++ '/' :: file) ∧
    (∀ desc, '/' ∉ desc → absolutize desc file = file) := by
  refine ⟨?_, ?_, ?_⟩
  · rintro desc r rfl
    show (if '/' = '/' then '/' :: r else if desc = [] then '/' :: r else dirName desc ++ '/' :: r) = _
    rw [if_pos rfl]
  · intro d b hb hne hh
    cases file with
    | nil => exact absurd rfl hne
    | cons c r =>
      simp only [List.head?_cons, ne_eq, Option.some.injEq] at hh
      show (if c = '/' then c :: r else if d ++ '/' :: b = [] then c :: r else dirName (d ++ '/' :: b) ++ c :: r) = _
      rw [if_neg hh, if_neg (by simp), dirName_slash d b hb]
      simp
  · intro desc hd
    unfold absolutize
    cases file with
    | nil => rfl
    | cons c r =>
      show (if c = '/' then c :: r else if desc = [] then c :: r else dirName desc ++ c :: r) = c :: r
      rw [dirName_none desc hd]
      simp

example : absolutize "/home/u/tm_desc".toList "main/model".toList = "/home/u/main/model".toList ∧ dirName "a/b/c".toList = "a/b/".toList := by decide +kernel

/-! ### C207: entries of a descriptor -/

/-- Specification: the words of a line before the first one that is `#`. -/
def content (l : Str) : List Str := (fields ' ' l).takeWhile fun w => decide (w ≠ sHash)

theorem nf_eq (l : Str) : nf l = (fields ' ' l).length := Awk.C41_NF ' ' l
theorem fld_eq (l : Str) (n : Nat) : fld l (n + 1) = (fields ' ' l)[n]?.getD [] := (Awk.C41_dollar ' ' l).2 n
theorem fld_zero (l : Str) : fld l 0 = l := (Awk.C41_dollar ' ' l).1

theorem find_hash (fs : List Str) : ∀ (rest : List Str) (k : Nat), (∀ i, i < rest.length → fs[k + i]?.getD [] = rest[i]?.getD []) →
    (match (List.range' (k + 1) rest.length).find? fun i => decide (fs[i - 1]?.getD [] = sHash) with
      | some i => i - 1
      | none => k + rest.length) = k + (rest.takeWhile fun w => decide (w ≠ sHash)).length
  | [], k, _ => by simp
  | w :: rest, k, h => by
    rw [List.length_cons, List.range'_succ, List.find?_cons]
    have h0 := h 0 (by simp)
    simp only [Nat.add_zero, List.getElem?_cons_zero, Option.getD_some] at h0
    have e : fs[k + 1 - 1]?.getD [] = w := by rw [Nat.add_sub_cancel]; exact h0
    by_cases hw : w = sHash
    · rw [e, decide_eq_true hw]
      simp [List.takeWhile_cons, hw]
    · rw [e, decide_eq_false hw]
      have ih := find_hash fs rest (k + 1) (fun i hi => by
        have := h (i + 1) (by simp; omega)
        rw [show k + 1 + i = k + (i + 1) by omega, this]; simp)
      simp only
      rw [List.takeWhile_cons, decide_eq_true hw]
      simp only [if_true, List.length_cons]
      rw [show k + (rest.length + 1) = k + 1 + rest.length by omega, ih]
      omega

theorem entryLen_eq (l : Str) : entryLen l = (content l).length := by
  unfold entryLen content
  rw [nf_eq]
  have h := find_hash (fields ' ' l) (fields ' ' l) 0 (fun i _ => by rw [Nat.zero_add])
  simp only [Nat.zero_add] at h
  rw [← h]
  have e : ((List.range' 1 (fields ' ' l).length).find? fun i => decide (fld l i = sHash)) =
      (List.range' 1 (fields ' ' l).length).find? fun i => decide ((fields ' ' l)[i - 1]?.getD [] = sHash) := by
    have : ∀ (n k : Nat), ((List.range' (k + 1) n).find? fun i => decide (fld l i = sHash)) =
        (List.range' (k + 1) n).find? fun i => decide ((fields ' ' l)[i - 1]?.getD [] = sHash) := by
      intro n
      induction n with
      | zero => intro k; rfl
      | succ n ih =>
        intro k
        rw [List.range'_succ, List.find?_cons, List.find?_cons, ih, fld_eq, Nat.add_sub_cancel]
    exact this _ 0
  rw [e]
  rfl

theorem content_prefix (l : Str) : ∃ r, fields ' ' l = content l ++ r :=
  ⟨(fields ' ' l).dropWhile fun w => decide (w ≠ sHash), (List.takeWhile_append_dropWhile).symm⟩

theorem fld_content (l : Str) (n : Nat) (h : n < (content l).length) : fld l (n + 1) = (content l)[n] := by
  obtain ⟨r, hr⟩ := content_prefix l
  rw [fld_eq, hr, List.getElem?_append_left h, List.getElem?_eq_getElem h]; rfl

/-- Specification: words separated by single blanks, with the name of the library directory replaced. -/
def initOf (var lib : Str) (ws : List Str) : Str := joinWords (ws.map (StrProc.expandLibDirIfFound var lib))

theorem joinWords_snoc (ws : List Str) (w : Str) : joinWords (ws ++ [w]) = if ws = [] then w else joinWords ws ++ ' ' :: w := by
  induction ws with
  | nil => rfl
  | cons v ws ih =>
    cases ws with
    | nil => rfl
    | cons u ws =>
      rw [if_neg (by simp)] at ih ⊢
      show v ++ ' ' :: joinWords ((u :: ws) ++ [w]) = (v ++ ' ' :: joinWords (u :: ws)) ++ ' ' :: w
      rw [ih]; simp

theorem initInfo_eq (var lib l : Str) (ws : List Str) (n : Nat) (hn : n = ws.length + 2)
    (h : ∀ i, (hi : i < ws.length) → fld l (i + 1) = ws[i]) : initInfo var lib l n = initOf var lib ws := by
  unfold initInfo initOf
  subst hn
  rw [show ws.length + 2 - 2 = ws.length by omega]
  have gen : ∀ (k : Nat), k ≤ ws.length →
      (List.range' 1 k).foldl (fun acc i => acc ++ StrProc.expandLibDirIfFound var lib (fld l i) ++ (if i ≠ ws.length then [' '] else [])) [] =
        joinWords ((ws.take k).map (StrProc.expandLibDirIfFound var lib)) ++ (if k ≠ 0 ∧ k ≠ ws.length then [' '] else []) := by
    intro k
    induction k with
    | zero => intro _; simp [joinWords]
    | succ k ih =>
      intro hk
      rw [List.range'_1_concat, List.foldl_append, ih (by omega)]
      simp only [List.foldl_cons, List.foldl_nil]
      rw [show 1 + k = k + 1 by omega, h k (by omega), List.take_add_one, List.getElem?_eq_getElem (by omega : k < ws.length)]
      simp only [Option.toList_some, List.map_append, List.map_cons, List.map_nil]
      rw [joinWords_snoc]
      by_cases hk0 : k = 0
      · subst hk0
        simp [joinWords]
      · have hne : (ws.take k).map (StrProc.expandLibDirIfFound var lib) ≠ [] := by
          intro hh
          have := congrArg List.length hh
          rw [List.length_map, List.length_take, List.length_nil] at this
          omega
        rw [if_neg hne, if_pos ⟨hk0, by omega⟩]
        simp
  rw [gen ws.length (Nat.le_refl _), List.take_length]
  simp

/-- C207: a line with at least three words, two or more of them before a possible comment, gives an entry: the last two words are the
file and the status and the previous ones the initialisation, with the library directory in place of its variable; the file name is
also given from the directory of the descriptor. Lines with less than three words, and comments, give none. -/
theorem C207_entry (var lib desc l : Str) :
    (∀ ws f s, content l = ws ++ [f, s] → 3 ≤ (fields ' ' l).length →
      entryOf var lib desc l = some ⟨initOf var lib ws, f, s, absolutize desc f⟩) ∧
    ((fields ' ' l).length < 3 → entryOf var lib desc l = none) ∧
    ((fields ' ' l).head? = some sHash → entryOf var lib desc l = none) := by
  have hf1 : fld l 1 = (fields ' ' l).head?.getD [] := by rw [fld_eq, List.head?_eq_getElem?]
  refine ⟨?_, ?_, ?_⟩
  · intro ws f s hc h3
    have hlen : (content l).length = ws.length + 2 := by rw [hc]; simp
    have hne : fld l 1 ≠ sHash := by
      rw [fld_content l 0 (by omega)]
      have : ∀ w ∈ content l, w ≠ sHash := fun w hw => by
        have := List.all_takeWhile (p := fun w => decide (w ≠ sHash)) (l := fields ' ' l)
        rw [List.all_eq_true] at this
        simpa using this w hw
      exact this _ (List.getElem_mem _)
    unfold entryOf
    rw [if_pos hne, nf_eq, if_pos h3, entryLen_eq, hlen]
    have e1 : fld l (ws.length + 2 - 1) = f := by
      rw [show ws.length + 2 - 1 = ws.length + 1 by omega, fld_content l ws.length (by omega)]
      simp [hc]
    have e2 : fld l (ws.length + 2) = s := by
      rw [fld_content l (ws.length + 1) (by omega)]
      simp [hc]
    rw [e1, e2, initInfo_eq var lib l ws _ rfl]
    intro i hi
    rw [fld_content l i (by omega)]
    simp [hc, List.getElem_append_left hi]
  · intro h
    unfold entryOf
    rw [nf_eq]
    split
    · rw [if_neg (by omega)]
    · rfl
  · intro h
    unfold entryOf
    rw [hf1, h]
    simp

/-- C207, in full: lines with fewer than two words before the comment give no entry. -/
def C207_full : Prop := ∀ (var lib desc l : Str), (content l).length < 2 → entryOf var lib desc l = none

/-- A word and a comment give an entry whose file is the whole line. -/
theorem C207_counterexample : ¬ C207_full := by
  intro h
  have := h "$(lib)".toList "/lib".toList [] "model # comment".toList (by decide +kernel)
  revert this
  decide +kernel

/-! ### Printing and reading -/

theorem linesOf_text (ls : List Str) (h : ∀ l ∈ ls, ∀ c ∈ l, c ≠ '\n' ∧ c ≠ '\x00') :
    linesOf (ls.flatMap fun l => l ++ ['\n']) = ls := by
  unfold linesOf
  apply Awk.C42_lines_partial ls h
  refine Nat.lt_succ_of_le ?_
  clear h
  induction ls with
  | nil => simp
  | cons l ls ih =>
    rw [List.flatMap_cons, List.length_append, List.length_append, List.length_cons, List.length_singleton]
    omega

/-- Words of an entry that can be printed and read: not empty, without blanks, newlines or null characters, and not the mark of comments. -/
def PWord (w : Str) : Prop := Word w ∧ w ≠ sHash

instance (w : Str) : Decidable (PWord w) := by unfold PWord Word; infer_instance

/-- An entry as read from a descriptor: the initialisation is one word or more, not changed by the replacement of the library directory. -/
structure Good (var lib desc : Str) (e : Entry) : Prop where
  init : ∃ ws : List Str, ws ≠ [] ∧ e.init = joinWords ws ∧ (∀ w ∈ ws, PWord w) ∧ ∀ w ∈ ws, ¬ ∃ r, w = var ++ r
  file : PWord e.file
  status : PWord e.status
  abs : e.abs = absolutize desc e.file

theorem joinWords_append {a b : List Str} (ha : a ≠ []) (hb : b ≠ []) : joinWords (a ++ b) = joinWords a ++ ' ' :: joinWords b := by
  induction a with
  | nil => exact absurd rfl ha
  | cons x a ih =>
    cases a with
    | nil =>
      cases b with
      | nil => exact absurd rfl hb
      | cons y b => rfl
    | cons x' a =>
      have := ih (by simp)
      show x ++ ' ' :: joinWords ((x' :: a) ++ b) = (x ++ ' ' :: joinWords (x' :: a)) ++ ' ' :: joinWords b
      rw [this]; simp

/-- C207: a printed descriptor is recognised as such and read back with the same entries. -/
theorem C207_roundtrip (var lib desc : Str) (es : List Entry) (h : ∀ e ∈ es, Good var lib desc e) :
    entries var lib desc (some (printDesc es)) = some es := by
  have hline : ∀ e ∈ es, ∃ ws : List Str, ws ≠ [] ∧ (∀ w ∈ ws, PWord w) ∧ (∀ w ∈ ws, ¬ ∃ r, w = var ++ r) ∧ e.init = joinWords ws ∧
      e.init ++ [' '] ++ e.file ++ [' '] ++ e.status = joinWords (ws ++ [e.file, e.status]) := by
    intro e he
    obtain ⟨ws, h1, h2, h3, h4⟩ := (h e he).init
    refine ⟨ws, h1, h3, h4, h2, ?_⟩
    rw [joinWords_append h1 (by simp), h2]
    simp [joinWords]
  have hP : printDesc es = (("thot tm descriptor".toList) :: es.map fun e => e.init ++ [' '] ++ e.file ++ [' '] ++ e.status).flatMap fun l => l ++ ['\n'] := by
    unfold printDesc
    rw [List.flatMap_cons, List.flatMap_map]
  have hpw : ∀ e ∈ es, ∀ ws : List Str, (∀ w ∈ ws, PWord w) → ∀ w ∈ ws ++ [e.file, e.status], PWord w := by
    intro e he ws hws w hw
    simp only [List.mem_append, List.mem_cons, List.not_mem_nil, or_false] at hw
    rcases hw with hw | rfl | rfl
    · exact hws w hw
    · exact (h e he).file
    · exact (h e he).status
  have hL : linesOf (printDesc es) = ("thot tm descriptor".toList) :: es.map fun e => e.init ++ [' '] ++ e.file ++ [' '] ++ e.status := by
    rw [hP]
    apply linesOf_text
    intro l hl
    simp only [List.mem_cons, List.mem_map] at hl
    rcases hl with rfl | ⟨e, he, rfl⟩
    · decide
    · obtain ⟨ws, h1, h2, h3, h4, h5⟩ := hline e he
      rw [h5]
      exact line_join (fun w hw => (hpw e he ws h2 w hw).1)
  have hd : isDescriptor (some (printDesc es)) = true := by
    unfold isDescriptor
    simp only [hL]
    decide +kernel
  unfold entries
  rw [if_pos hd]
  simp only [hL, List.tail_cons]
  congr 1
  rw [List.filterMap_map]
  have : ∀ e ∈ es, (entryOf var lib desc ∘ fun e : Entry => e.init ++ [' '] ++ e.file ++ [' '] ++ e.status) e = some e := by
    intro e he
    obtain ⟨ws, h1, h2, h3, h4, h5⟩ := hline e he
    have hw := hpw e he ws h2
    simp only [Function.comp]
    rw [h5]
    have hf : fields ' ' (joinWords (ws ++ [e.file, e.status])) = ws ++ [e.file, e.status] := fields_join (fun w hx => (hw w hx).1)
    have hc : content (joinWords (ws ++ [e.file, e.status])) = ws ++ [e.file, e.status] := by
      unfold content
      rw [hf]
      have : ∀ (l : List Str), (∀ w ∈ l, PWord w) → (l.takeWhile fun w => decide (w ≠ sHash)) = l := by
        intro l hl
        induction l with
        | nil => rfl
        | cons w l ih =>
          rw [List.takeWhile_cons, decide_eq_true (hl w (List.mem_cons_self ..)).2, ih (fun x hx => hl x (List.mem_cons_of_mem _ hx))]
          rfl
      exact this _ hw
    rw [(C207_entry var lib desc _).1 ws e.file e.status hc (by
      rw [hf]
      have : ws.length ≠ 0 := fun hh => h1 (List.length_eq_zero_iff.1 hh)
      simp; omega)]
    have hi : initOf var lib ws = joinWords ws := by
      unfold initOf
      congr 1
      conv => rhs; rw [← List.map_id ws]
      apply List.map_congr_left
      intro w hwm
      exact (StrProc.C39_expand var lib w).2 (h3 w hwm)
    rw [hi, ← h4, ← (h e he).abs]
  clear hL hP hd hline hpw h
  induction es with
  | nil => rfl
  | cons e es ih =>
    rw [List.filterMap_cons, this e (List.mem_cons_self ..)]
    simp only
    rw [ih (fun x hx => this x (List.mem_cons_of_mem _ hx))]

example : Good "$(lib)".toList "/lib".toList "/m/desc".toList ⟨"a.so b".toList, "f".toList, "main".toList, "/m/f".toList⟩ := by
  refine ⟨⟨["a.so".toList, "b".toList], by simp, rfl, by decide, ?_⟩, by decide, by decide, by decide +kernel⟩
  intro w hw
  simp only [List.mem_cons, List.not_mem_nil, or_false] at hw
  rintro ⟨r, hr⟩
  rcases hw with rfl | rfl <;> simp at hr

/-! ### C208: the main file -/

/-- C208, in full: for a descriptor, the main file is that of the first entry whose status is `main` (empty if there is none); for
other files there is none. -/
def C208_full : Prop := ∀ (var lib desc : Str) (f : Option Str),
  mainFile f = (entries var lib desc f).map fun es => match es.find? fun e => decide (e.status = sMain) with | some e => e.file | none => []

/-- The main entry has two initialisation words; it is not found. -/
theorem C208_counterexample : ¬ C208_full := by
  intro h
  have := h "$(lib)".toList "/lib".toList [] (some "thot lm descriptor\nlm.so opt file main\n".toList)
  revert this
  decide +kernel

/-- Lines for which the two functions agree: empty, or three words (the second one is not `main`), followed by a comment or nothing. -/
def Regular (l : Str) : Prop :=
  fields ' ' l = [] ∨ ∃ a b c, content l = [a, b, c] ∧ b ≠ sMain

theorem isDescriptor_main (f : Option Str) : (mainFile f).isSome = isDescriptor f := by
  unfold mainFile isDescriptor
  cases f with
  | none => rfl
  | some t =>
    simp only
    split
    · rfl
    · split
      · rename_i h; rw [h]; rfl
      · rename_i h
        simp only [Bool.not_eq_true] at h
        rw [h]; rfl

/-- C208, part that holds: when the lines after the first one are empty or have exactly three words before a possible comment. Missing:
entries with more than one initialisation word, and comment lines whose second or third word is `main`. -/
theorem C208_main_partial (var lib desc : Str) (f : Option Str) (h : ∀ t, f = some t → ∀ l ∈ (linesOf t).tail, Regular l) :
    mainFile f = (entries var lib desc f).map fun es => match es.find? fun e => decide (e.status = sMain) with | some e => e.file | none => [] := by
  have key : ∀ ls : List Str, (∀ l ∈ ls, Regular l) →
      findMain ls = match (ls.filterMap (entryOf var lib desc)).find? fun e => decide (e.status = sMain) with | some e => e.file | none => [] := by
    intro ls
    induction ls with
    | nil => intro _; rfl
    | cons l ls ih =>
      intro hl
      have ih := ih (fun x hx => hl x (List.mem_cons_of_mem _ hx))
      rcases hl l (List.mem_cons_self ..) with h0 | ⟨a, b, c, hc, hb⟩
      · have hn : nf l = 0 := by rw [nf_eq, h0]; rfl
        rw [findMain, if_neg (by omega), if_neg (by omega), List.filterMap_cons, (C207_entry var lib desc l).2.1 (by rw [h0]; simp)]
        exact ih
      · obtain ⟨r, hr⟩ := content_prefix l
        have h3 : 3 ≤ (fields ' ' l).length := by rw [hr, hc]; simp
        have e1 : fld l 1 = a := by rw [fld_content l 0 (by rw [hc]; simp)]; simp [hc]
        have e2 : fld l 2 = b := by rw [fld_content l 1 (by rw [hc]; simp)]; simp [hc]
        have e3 : fld l 3 = c := by rw [fld_content l 2 (by rw [hc]; simp)]; simp [hc]
        rw [List.filterMap_cons, (C207_entry var lib desc l).1 [a] b c hc h3, findMain, nf_eq, e1, e2, e3]
        simp only [List.find?_cons]
        by_cases hm : c = sMain
        · rw [if_pos ⟨h3, hm⟩, decide_eq_true hm]
        · rw [if_neg (fun hh => hm hh.2), if_neg (fun hh => hb hh.2), decide_eq_false hm]
          exact ih
  have hs := isDescriptor_main f
  cases f with
  | none => rfl
  | some t =>
    unfold entries
    cases hd : isDescriptor (some t) with
    | false =>
      rw [hd] at hs
      cases hm : mainFile (some t) with
      | none => simp
      | some m => rw [hm] at hs; simp at hs
    | true =>
      simp only [if_true, Option.map_some]
      unfold mainFile
      unfold isDescriptor at hd
      simp only at hd ⊢
      split at hd
      · cases hd
      · rename_i l ls hl
        rw [hl]
        simp only [hd, if_true, List.tail_cons]
        congr 1
        exact key ls (fun x hx => h t rfl x (by rw [hl]; exact hx))

/-- C208: a comment that mentions a main file is taken as the main entry. -/
theorem C208_comment : mainFile (some "thot lm descriptor\n# old main\nlm.so file main\n".toList) = some "old".toList ∧
    entries "$(lib)".toList "/lib".toList [] (some "thot lm descriptor\n# old main\nlm.so file main\n".toList) =
      some [⟨"lm.so".toList, "file".toList, "main".toList, "file".toList⟩] := by decide +kernel

example : mainFile (some "thot tm descriptor\na.so m1 aux\n\nb.so m2 main # c\n".toList) = some "m2".toList := by decide +kernel

end Thot.Desc
