import Verif.TextTools.Model
import Verif.NbTools.Basic
/-!
C276, C277: converting alignments in GIZA format into Moses format, exhaustive alignments.
-/
namespace Thot.TextTools

open Thot
open Thot.SentHandler (joinWords Word Line fields_join line_join)
open Thot.Awk (fields)
open Thot.Vocab (showNat)
open Thot.AligFile (Entry EntryOk printAll textOf print_text print_all_cons)
open Thot.NbTools (fields_blank fields_word)

/-! ### Specification -/

/-- The line of an alignment in Moses format: its links, with positions that start at zero. -/
def linksText (l : List (Nat × Nat)) : W := l.flatMap fun p => showNat p.1 ++ ['-'] ++ showNat p.2 ++ [' ']

/-- The links of the matrix of an entry, by source word; the source word 0 is the first after the null word. -/
def linksOf (e : Entry) : List (Nat × Nat) :=
  (List.range (e.ns.length - 1)).flatMap fun i => (List.range e.t.length).flatMap fun j => List.replicate (e.mat.m i j) (i, j)

/-- All the links of two sentences. -/
def allLinks (m n : Nat) : List (Nat × Nat) := (List.range m).flatMap fun i => (List.range n).map fun j => (i, j)

/-! ### Proof -/

/-- The fields of a third line. -/
def toksL : List (W × List Nat) → List W
  | [] => []
  | p :: l => p.1 :: opBr :: (p.2.map showNat ++ clBr :: toksL l)

/-- The pairs of a third line. -/
def pairsL : Nat → List (W × List Nat) → List (Nat × Int)
  | _, [] => []
  | k, p :: l => p.2.map (fun n => (k, Int.ofNat n)) ++ pairsL (k + 1) l

theorem pyInt_showNat (n : Nat) : pyInt (showNat n) = some (Int.ofNat n) := by
  unfold pyInt
  have h : (showNat n).all Vocab.isDig = true := by
    rw [List.all_eq_true]
    intro c hc
    obtain ⟨m, rfl⟩ := Vocab.showNat_digits n c hc
    exact (Vocab.digit_dig m).1
  rw [if_pos ⟨Vocab.showNat_ne_nil n, h⟩]
  rw [Vocab.atoiDigits_showNat]; rfl

theorem numLoop_spec : ∀ (l : List Nat) (r : List W), numLoop (l.map showNat ++ clBr :: r) = some (l.map Int.ofNat, r) := by
  intro l r
  induction l with
  | nil => rfl
  | cons n l ih =>
    rw [List.map_cons, List.cons_append]
    show (if showNat n = clBr then _ else _) = _
    rw [if_neg (show ¬ showNat n = clBr from AligFile.showNat_ne_cl n), pyInt_showNat, ih]
    rfl

theorem extract_spec : ∀ (l : List (W × List Nat)) (k : Nat), extract k (toksL l) = some (pairsL k l) := by
  intro l
  induction l with
  | nil => intro k; unfold toksL; rw [extract]; rfl
  | cons p l ih =>
    intro k
    show extract k (p.1 :: opBr :: (p.2.map showNat ++ clBr :: toksL l)) = _
    rw [extract]
    have h1 : numLoop ((opBr :: (p.2.map showNat ++ clBr :: toksL l)).drop 1) = some (p.2.map Int.ofNat, toksL l) := by
      rw [List.drop_succ_cons, List.drop_zero]; exact numLoop_spec _ _
    split
    · rename_i h; rw [h1] at h; exact absurd h (by simp)
    · rename_i r h
      rw [h1] at h
      cases h
      rw [ih]
      simp [pairsL, Function.comp_def]

theorem mosesLine_append (a b : List (Nat × Int)) : mosesLine (a ++ b) = mosesLine a ++ mosesLine b := by
  unfold mosesLine; rw [List.flatMap_append]

/-- The links after position zero. -/
def linksL : Nat → List (W × List Nat) → List (Nat × Nat)
  | _, [] => []
  | k, p :: l => p.2.map (fun n => (k, n - 1)) ++ linksL (k + 1) l

theorem moses_row (k : Nat) : ∀ (l : List Nat), (∀ n ∈ l, 1 ≤ n) →
    mosesLine (l.map fun n => (k + 1, Int.ofNat n)) = linksText (l.map fun n => (k, n - 1)) := by
  intro l h
  induction l with
  | nil => rfl
  | cons n l ih =>
    have h1 := h n List.mem_cons_self
    have e : showInt (Int.ofNat n - 1) = showNat (n - 1) := by
      have : Int.ofNat n - 1 = Int.ofNat (n - 1) := by simp only [Int.ofNat_eq_natCast]; omega
      rw [this]; unfold showInt
      rw [if_neg (by simp)]; rfl
    have := ih (fun x hx => h x (List.mem_cons_of_mem _ hx))
    unfold mosesLine linksText at *
    simp only [List.map_cons, List.flatMap_cons]
    rw [this, if_pos (by omega), e]
    simp

theorem moses_rows : ∀ (l : List (W × List Nat)) (k : Nat), (∀ p ∈ l, ∀ n ∈ p.2, 1 ≤ n) →
    mosesLine (pairsL (k + 1) l) = linksText (linksL k l) := by
  intro l
  induction l with
  | nil => intro k _; rfl
  | cons p l ih =>
    intro k h
    show mosesLine (p.2.map (fun n => (k + 1, Int.ofNat n)) ++ pairsL (k + 2) l) = linksText (p.2.map (fun n => (k, n - 1)) ++ linksL (k + 1) l)
    rw [mosesLine_append, ih (k + 1) (fun x hx => h x (List.mem_cons_of_mem _ hx)), moses_row k p.2 (h p List.mem_cons_self)]
    unfold linksText; rw [List.flatMap_append]

theorem moses_zero (l : List Nat) : mosesLine (l.map fun n => (0, Int.ofNat n)) = [] := by
  unfold mosesLine
  induction l with
  | nil => rfl
  | cons n l ih => rw [List.map_cons, List.flatMap_cons, ih]; rfl

theorem line_moses (p : W × List Nat) (l : List (W × List Nat)) (h : ∀ p ∈ l, ∀ n ∈ p.2, 1 ≤ n) :
    mosesLine (pairsL 0 (p :: l)) = linksText (linksL 0 l) := by
  show mosesLine (p.2.map (fun n => (0, Int.ofNat n)) ++ pairsL 1 l) = _
  rw [mosesLine_append, moses_zero, moses_rows l 0 h]; rfl

theorem toks_eq (A : WordAlig.Mat) : ∀ (ns : List W) (k : Nat),
    AligFile.toks A k ns = toksL ((ns.zipIdx k).map fun p => (p.1, AligFile.nums A p.2)) := by
  intro ns
  induction ns with
  | nil => intro k; rfl
  | cons w ns ih =>
    intro k
    show w :: AligFile.opBr :: ((AligFile.nums A k).map showNat ++ AligFile.clBr :: AligFile.toks A (k + 1) ns) = _
    rw [ih (k + 1), List.zipIdx_cons]; rfl

theorem links_zip (A : WordAlig.Mat) : ∀ (ns : List W) (k : Nat),
    linksL k ((ns.zipIdx (k + 1)).map fun p => (p.1, AligFile.nums A p.2)) =
      (List.range' k ns.length).flatMap fun i => (List.range A.J).flatMap fun j => List.replicate (A.m i j) (i, j) := by
  intro ns
  induction ns with
  | nil => intro k; rfl
  | cons w ns ih =>
    intro k
    rw [List.zipIdx_cons, List.map_cons]
    show (AligFile.nums A (k + 1)).map (fun n => (k, n - 1)) ++ linksL (k + 1) _ = _
    rw [ih (k + 1), List.length_cons, List.range'_succ, List.flatMap_cons]
    congr 1
    show (List.map _ ((List.range A.J).flatMap fun j => List.replicate (A.m k j) (j + 1))) = _
    rw [List.map_flatMap]
    congr 1
    funext j
    rw [List.map_replicate]; rfl

theorem entry_line (e : Entry) (h : EntryOk e) :
    extract 0 (fields ' ' ((AligFile.toks e.mat 0 e.ns).flatMap (· ++ [' ']))) = some (pairsL 0 ((e.ns.zipIdx 0).map fun p => (p.1, AligFile.nums e.mat p.2))) ∧
    mosesLine (pairsL 0 ((e.ns.zipIdx 0).map fun p => (p.1, AligFile.nums e.mat p.2))) = linksText (linksOf e) := by
  obtain ⟨h1, h2, h3, h4, h5, h6⟩ := h
  refine ⟨?_, ?_⟩
  · rw [AligFile.fields_sp (AligFile.toks_word e.mat e.ns 0 (fun w hw => (h2 w hw).1)), toks_eq, extract_spec]
  · obtain ⟨w, ns, hw⟩ := List.exists_cons_of_ne_nil h1
    rw [hw, List.zipIdx_cons, List.map_cons, line_moses _ _ (by
      intro p hp n hn
      obtain ⟨q, _, rfl⟩ := List.mem_map.1 hp
      exact (AligFile.nums_le _ _ _ hn).1), links_zip]
    unfold linksOf
    rw [hw, h5, List.length_cons, Nat.add_sub_cancel, ← List.range_eq_range']

theorem toks_ne {e : Entry} (h : EntryOk e) : (AligFile.toks e.mat 0 e.ns).flatMap (· ++ [' ']) ≠ [] := by
  obtain ⟨w, ns, hw⟩ := List.exists_cons_of_ne_nil h.1
  rw [hw]
  show (w :: _).flatMap (· ++ [' ']) ≠ []
  rw [List.flatMap_cons]; simp

/-- The lines of an entry. -/
def linesOf (header : W) (e : Entry) : List W :=
  [header, joinWords e.t, (AligFile.toks e.mat 0 e.ns).flatMap (· ++ [' '])]

theorem toMoses_cons (l1 l2 l3 : W) (ls : List W) (h : l3 ≠ []) : toMoses (l1 :: l2 :: l3 :: ls) =
    match extract 0 (fields ' ' l3), toMoses ls with
    | some al, some r => some (mosesLine al :: r)
    | _, _ => none := by
  show (if l3 = [] then _ else _) = _
  rw [if_neg h]; rfl

/-- C276. For every file of alignments written by the library in GIZA format (with the header `# <repetitions>`), of entries whose words have no
blank, newline or NUL: `thot_conv_giza_alig_file` prints one line for each entry, with the links of its matrix and no others, as `i-j` with
positions that start at zero. The null word is not printed. -/
theorem C276_moses (fmt : Rat → W) (hf : ∀ x, Word (fmt x)) (es : List Entry) (h : ∀ e ∈ es, EntryOk e) :
    ∃ (file : W) (ls : List W), printAll fmt es = some file ∧ (∀ l ∈ ls, Line l) ∧ file = ls.flatMap (· ++ ['\n']) ∧
      toMoses ls = some (es.map fun e => linksText (linksOf e)) := by
  induction es with
  | nil => exact ⟨[], [], rfl, (by intro l hl; cases hl), rfl, rfl⟩
  | cons e es ih =>
    obtain ⟨f, ls, h1, h2, h3, h4⟩ := ih (fun x hx => h x (List.mem_cons_of_mem _ hx))
    have he := h e List.mem_cons_self
    refine ⟨_, linesOf (['#', ' '] ++ fmt e.reps) e ++ ls, print_all_cons fmt e es he f h1, ?_, ?_, ?_⟩
    · intro l hl
      rcases List.mem_append.1 hl with hl | hl
      · unfold linesOf at hl
        simp only [List.mem_cons, List.not_mem_nil, or_false] at hl
        rcases hl with rfl | rfl | rfl
        · rw [AligFile.header_eq]
          exact line_join (by
            intro w hw
            simp only [List.mem_cons, List.not_mem_nil, or_false] at hw
            rcases hw with rfl | rfl
            · exact AligFile.word_hash
            · exact hf _)
        · exact line_join he.2.2.1
        · exact AligFile.line_sp (AligFile.toks_word e.mat e.ns 0 (fun w hw => (he.2.1 w hw).1))
      · exact h2 l hl
    · rw [List.flatMap_append, ← h3]
      simp [linesOf, textOf]
    · show toMoses (_ :: _ :: _ :: ls) = _
      rw [toMoses_cons _ _ _ _ (toks_ne he), (entry_line e he).1, h4]
      show some (mosesLine _ :: _) = _
      rw [(entry_line e he).2]; rfl

/-! ### Exhaustive alignments -/

theorem fields_positions (n : Nat) : fields ' ' (positions n) = (List.range n).map fun i => showNat (i + 1) :=
  fields_join (by
    intro w hw
    obtain ⟨i, _, rfl⟩ := List.mem_map.1 hw
    exact AligFile.word_showNat _)

theorem fields_tail (n : Nat) : ∀ (s : List W), (∀ w ∈ s, Word w) →
    fields ' ' (s.flatMap fun w => w ++ " ({ ".toList ++ positions n ++ " }) ".toList) =
      toksL (s.map fun w => (w, (List.range n).map (· + 1))) := by
  intro s
  have e1 : " ({ ".toList = ' ' :: (opBr ++ [' ']) := rfl
  have e2 : " }) ".toList = ' ' :: (clBr ++ [' ']) := rfl
  rw [e1, e2]
  induction s with
  | nil => intro _; rfl
  | cons w s ih =>
    intro h
    rw [List.flatMap_cons]
    have : ∀ x : W, (w ++ ' ' :: (opBr ++ [' ']) ++ positions n ++ ' ' :: (clBr ++ [' '])) ++ x =
        w ++ ' ' :: (opBr ++ ' ' :: (positions n ++ ' ' :: (clBr ++ ' ' :: x))) := by intro x; simp
    rw [this, fields_blank, fields_blank, fields_blank, fields_blank, ih (fun x hx => h x (List.mem_cons_of_mem _ hx)),
      fields_word (h w List.mem_cons_self), fields_positions, fields_word (w := opBr) ⟨by decide, by decide⟩,
      fields_word (w := clBr) ⟨by decide, by decide⟩]
    simp [toksL]

theorem links_all (n : Nat) : ∀ (s : List W) (k : Nat), linksL k (s.map fun w => (w, (List.range n).map (· + 1))) =
    (List.range' k s.length).flatMap fun i => (List.range n).map fun j => (i, j) := by
  intro s
  induction s with
  | nil => intro k; rfl
  | cons w s ih =>
    intro k
    rw [List.map_cons]
    show ((List.range n).map (· + 1)).map (fun m => (k, m - 1)) ++ linksL (k + 1) _ = _
    rw [ih (k + 1), List.length_cons, List.range'_succ, List.flatMap_cons, List.map_map]
    congr 1

theorem fields_exh (n : Nat) (s : List W) (h : ∀ w ∈ s, Word w) :
    fields ' ' ("NULL ({ }) ".toList ++ s.flatMap fun w => w ++ " ({ ".toList ++ positions n ++ " }) ".toList) =
      toksL (("NULL".toList, []) :: s.map fun w => (w, (List.range n).map (· + 1))) := by
  have e : ∀ x : W, "NULL ({ }) ".toList ++ x = ['N', 'U', 'L', 'L'] ++ ' ' :: (opBr ++ ' ' :: (clBr ++ ' ' :: x)) := fun x => rfl
  rw [e, fields_blank, fields_blank, fields_blank, fields_tail n s h,
    fields_word (w := ['N', 'U', 'L', 'L']) ⟨by decide, by decide⟩, fields_word (w := opBr) ⟨by decide, by decide⟩,
    fields_word (w := clBr) ⟨by decide, by decide⟩]
  rfl

/-- C277. For every two files of sentences: `thot_gen_exhaustive_giza_alig` writes an entry for each sentence pair (up to the end of the shorter
file), in which every source word is linked with every target word and the null word with none: `thot_conv_giza_alig_file` reads it and prints
all the pairs of positions. -/
theorem C277_exhaustive (ss ts : List (List W)) (hs : ∀ s ∈ ss, ∀ w ∈ s, Word w) (ht : ∀ t ∈ ts, ∀ w ∈ t, Word w) :
    toMoses (exhaustive (ss.map joinWords) (ts.map joinWords)) =
      some ((ss.zip ts).map fun p => linksText (allLinks p.1.length p.2.length)) := by
  induction ss generalizing ts with
  | nil => cases ts <;> rfl
  | cons s ss ih =>
    cases ts with
    | nil => rfl
    | cons t ts =>
      have h1 := hs s List.mem_cons_self
      have h2 := ht t List.mem_cons_self
      have hih := ih ts (fun x hx => hs x (List.mem_cons_of_mem _ hx)) (fun x hx => ht x (List.mem_cons_of_mem _ hx))
      show toMoses (_ :: _ :: _ :: exhaustive (ss.map joinWords) (ts.map joinWords)) = _
      rw [toMoses_cons _ _ _ _ (by
        have e : ∀ x : W, "NULL ({ }) ".toList ++ x ≠ [] := fun x h => by cases h
        exact e _), hih, fields_join h1, fields_join h2, fields_exh _ _ h1, extract_spec]
      show some (mosesLine _ :: _) = _
      rw [line_moses _ _ (by
        intro p hp n hn
        obtain ⟨w, _, rfl⟩ := List.mem_map.1 hp
        obtain ⟨i, _, rfl⟩ := List.mem_map.1 hn
        omega), links_all]
      simp [allLinks, List.range_eq_range']

/-! ### Non-vacuity -/

example : ∀ e ∈ AligFile.exEntries, EntryOk e := by
  intro e he
  revert e
  unfold AligFile.exEntries EntryOk
  decide +kernel

example : linksOf ⟨["NULL".toList, "a".toList, "b".toList], ["x".toList, "y".toList], ⟨2, 2, fun i j => if i = j then 0 else 1⟩, 1⟩ = [(0, 1), (1, 0)] := by decide

example : allLinks 2 2 = [(0, 0), (0, 1), (1, 0), (1, 1)] := by decide

end Thot.TextTools
