import Verif.AligFile.Giza
/-! C163: alignment files in the matrix format. -/
namespace Thot.AligFile
open Thot.WordAlig (Mat)
open Thot.Vocab (showNat atoi toWordIndex atoi_showNat)
open Thot.SentHandler (joinWords Word Line fields_join line_join)

/-- Entries that can be written: a source word (the null word), writable words, a matrix with the sizes of the sentences. -/
def MyOk (e : Entry) : Prop :=
  e.ns ≠ [] ∧ (∀ w ∈ e.ns, Word w) ∧ (∀ w ∈ e.t, Word w) ∧ e.mat.I = e.ns.length - 1 ∧ e.mat.J = e.t.length ∧
  ∀ i j, i < e.mat.I → j < e.mat.J → e.mat.m i j < 2 ^ 31

/-- The file with the entries one after another. -/
def printAllMy (es : List (Entry × Nat)) : Str := es.flatMap fun p => printMy p.1.ns p.1.t p.1.mat p.2

theorem wi_nat (n : Nat) (h : n < 2 ^ 31) : toWordIndex (n : Int) = n := by
  unfold toWordIndex
  have : (n : Int) % 2 ^ 32 = n := Int.emod_eq_of_lt (by omega) (by omega)
  rw [this]; rfl

def rowToks (A : Mat) (i : Nat) : List Str := (List.range A.J).map fun j => showNat (A.m i j)

theorem printRows_succ (A : Mat) (i : Nat) : printRows A (i + 1) = (rowToks A i).flatMap (· ++ [' ']) ++ '\n' :: printRows A i := by
  rw [printRows, rowToks, List.flatMap_map]

theorem rowToks_word (A : Mat) (i : Nat) : ∀ w ∈ rowToks A i, Word w := by
  intro w hw
  obtain ⟨j, _, rfl⟩ := List.mem_map.1 hw
  exact word_showNat _

theorem readRow_eq (x : Ext) (A : Mat) (row : Nat) (h : flds x = rowToks A row) (hv : ∀ j, j < A.J → A.m row j < 2 ^ 31)
    (n col : Nat) (hn : col + n = A.J) (B : Mat) (hI : B.I = A.I) (hJ : B.J = A.J) (hr : row < A.I) :
    readRow x row n col B = some ⟨A.I, A.J, fun a b => if a = row ∧ col ≤ b ∧ b < A.J then A.m row b else B.m a b⟩ := by
  induction n generalizing col B with
  | zero =>
    rw [readRow]
    obtain ⟨I, J, m⟩ := B
    simp only at hI hJ
    subst hI hJ
    congr 2
    funext a b
    rw [if_neg (by omega)]
  | succ n ih =>
    have hd : dollar x (col + 1) = showNat (A.m row col) := by
      rw [dollar_eq, h, rowToks, List.getElem?_map, List.getElem?_range (by omega)]; rfl
    rw [readRow, hd, atoi_showNat _ (hv col (by omega))]
    simp only
    rw [wi_nat _ (hv col (by omega))]
    have e : WordAlig.setValue B row col (A.m row col) = ⟨A.I, A.J, WordAlig.upd B.m row col (A.m row col)⟩ := by
      unfold WordAlig.setValue
      rw [if_pos ⟨by omega, by omega⟩, ← hI, ← hJ]
    rw [e, ih (col + 1) (by omega) ⟨A.I, A.J, WordAlig.upd B.m row col (A.m row col)⟩ rfl rfl]
    congr 2
    funext a b
    simp only [WordAlig.upd]
    by_cases h1 : a = row ∧ b = col
    · obtain ⟨rfl, rfl⟩ := h1
      rw [if_neg (by omega), if_pos ⟨rfl, rfl⟩, if_pos ⟨rfl, by omega, by omega⟩]
    · rw [if_neg h1]
      by_cases h2 : a = row ∧ col + 1 ≤ b ∧ b < A.J
      · rw [if_pos h2, if_pos ⟨h2.1, by omega, h2.2.2⟩]
      · rw [if_neg h2, if_neg (by omega)]

/-- The matrix when the rows from `k` on have been read. -/
def stageMy (A : Mat) (k : Nat) : Mat := ⟨A.I, A.J, fun a b => if k ≤ a ∧ a < A.I ∧ b < A.J then A.m a b else 0⟩

theorem readRows_eq (A : Mat) (row : Nat) (x : Ext) (rest : Str) (h : x.inp = printRows A row ++ rest) (hJ : A.J = x.t.length)
    (hr : row ≤ A.I) (hm : x.mat = stageMy A row) (hv : ∀ i j, i < A.I → j < A.J → A.m i j < 2 ^ 31) :
    ∃ line, readRows row x = some ({ x with mat := norm A, inp := rest, line := line }, true) := by
  induction row generalizing x with
  | zero =>
    refine ⟨x.line, ?_⟩
    have e : norm A = x.mat := by rw [hm]; unfold norm stageMy; simp
    have e2 : rest = x.inp := by rw [h]; rfl
    rw [readRows, e, e2]
  | succ i ih =>
    rw [printRows_succ, List.append_assoc, List.cons_append] at h
    have g := Awk.getln_nl ((rowToks A i).flatMap (· ++ [' '])) (printRows A i ++ rest) (line_sp (rowToks_word A i))
    rw [← h] at g
    rw [readRows]
    have hk : getlnKeep x = { x with line := (rowToks A i).flatMap (· ++ [' ']), inp := printRows A i ++ rest } := by
      unfold getlnKeep; rw [g]
    have f : flds (getlnKeep x) = rowToks A i := by rw [hk]; unfold flds; exact fields_sp (rowToks_word A i)
    rw [if_neg (by
      rw [nf_eq, f, hk]
      simp [rowToks, hJ])]
    have hmat : (getlnKeep x).mat = stageMy A (i + 1) := by rw [hk]; exact hm
    have hl : (getlnKeep x).t.length = A.J := by rw [hk]; exact hJ.symm
    rw [hl, hmat, readRow_eq (getlnKeep x) A i f (fun j hj => hv i j (by omega) hj) A.J 0 (by omega) (stageMy A (i + 1)) rfl rfl (by omega)]
    simp only
    have e : (⟨A.I, A.J, fun a b => if a = i ∧ 0 ≤ b ∧ b < A.J then A.m i b else (stageMy A (i + 1)).m a b⟩ : Mat) = stageMy A i := by
      unfold stageMy
      congr 1
      funext a b
      simp only
      by_cases h1 : a = i ∧ 0 ≤ b ∧ b < A.J
      · rw [if_pos h1, if_pos ⟨by omega, by omega, h1.2.2⟩, h1.1]
      · rw [if_neg h1]
        by_cases h2 : i + 1 ≤ a ∧ a < A.I ∧ b < A.J
        · rw [if_pos h2, if_pos ⟨by omega, h2.2⟩]
        · rw [if_neg h2, if_neg (by omega)]
    rw [e]
    obtain ⟨line, hl⟩ := ih { getlnKeep x with mat := stageMy A i } (by rw [hk]) (by rw [hk]; exact hJ) (by omega) rfl
    refine ⟨line, ?_⟩
    rw [hl, hk]

theorem next_my (atof : Str → Rat) (e : Entry) (h : MyOk e) (reps : Nat) (x : Ext) (rest : Str)
    (hx : x.inp = printMy e.ns e.t e.mat reps ++ rest) :
    ∃ line, nextMy atof x = some (⟨e.ns, e.t, norm e.mat, atof (showNat reps), line, rest⟩, true) := by
  obtain ⟨h1, h2, h3, h4, h5, h6⟩ := h
  have hpos := List.length_pos_iff.2 h1
  have hw1 : ∀ w ∈ [['#'], showNat reps], Word w := by
    intro w hm
    rcases List.mem_cons.1 hm with rfl | hm
    · exact word_hash
    · rw [List.mem_singleton] at hm; rw [hm]; exact word_showNat _
  have g1 : Awk.getln x.inp = some (joinWords [['#'], showNat reps], joinWords e.t ++ '\n' :: (joinWords e.ns ++ '\n' :: (printRows e.mat e.mat.I ++ rest))) := by
    rw [hx]
    have : printMy e.ns e.t e.mat reps ++ rest = joinWords [['#'], showNat reps] ++ '\n' ::
        (joinWords e.t ++ '\n' :: (joinWords e.ns ++ '\n' :: (printRows e.mat e.mat.I ++ rest))) := by
      simp [printMy, myNs, h1, joinWords]
    rw [this, Awk.getln_nl _ _ (line_join hw1)]
  have g2 := Awk.getln_nl (joinWords e.t) (joinWords e.ns ++ '\n' :: (printRows e.mat e.mat.I ++ rest)) (line_join h3)
  have g3 := Awk.getln_nl (joinWords e.ns) (printRows e.mat e.mat.I ++ rest) (line_join h2)
  unfold nextMy
  rw [g1]
  simp only
  have f1 : ∀ y : Ext, y.line = joinWords [['#'], showNat reps] → flds y = [['#'], showNat reps] := fun y hy => by
    unfold flds; rw [hy, fields_join hw1]
  rw [if_pos (by
    refine ⟨?_, ?_⟩
    · rw [nf_eq, f1 _ rfl]; rfl
    · rw [dollar_eq _ 0, f1 _ rfl]; rfl)]
  have d2 : ∀ y : Ext, y.line = joinWords [['#'], showNat reps] → dollar y 2 = showNat reps := fun y hy => by
    rw [dollar_eq _ 1, f1 y hy]; rfl
  rw [d2 _ rfl]
  unfold getlnKeep
  simp only
  rw [g2]
  simp only
  rw [g3]
  simp only
  rw [allFields_eq, allFields_eq]
  have f2 : ∀ y : Ext, y.line = joinWords e.t → flds y = e.t := fun y hy => by unfold flds; rw [hy, fields_join h3]
  have f3 : ∀ y : Ext, y.line = joinWords e.ns → flds y = e.ns := fun y hy => by unfold flds; rw [hy, fields_join h2]
  rw [f3 _ rfl, f2 _ rfl, if_neg h1]
  obtain ⟨line, hl⟩ := readRows_eq e.mat e.mat.I ⟨e.ns, e.t, WordAlig.init (e.ns.length - 1) e.t.length, atof (showNat reps),
    joinWords e.ns, printRows e.mat e.mat.I ++ rest⟩ rest rfl h5 (Nat.le_refl _) (by
      unfold stageMy WordAlig.init
      rw [h4, h5]
      show (⟨_, _, _⟩ : Mat) = ⟨_, _, _⟩
      congr 1
      funext a b
      rw [if_neg (by omega)]) h6
  exact ⟨line, by rw [← h4]; rw [← h4] at hl; exact hl⟩

/-- **C163.** Any list of word-aligned sentence pairs with writable words can be printed in the matrix format and reading the file
returns exactly these sentence pairs in the same order, with the same matrices. -/
theorem C163_matrix_round_trip (atof : Str → Rat) (es : List (Entry × Nat)) (h : ∀ p ∈ es, MyOk p.1) (fuel : Nat) (hf : es.length < fuel) :
    readAll (nextMy atof) fuel (openFile (printAllMy es)) =
      some (es.map fun p => (p.1.ns, p.1.t, norm p.1.mat, atof (showNat p.2))) := by
  suffices ∀ x : Ext, x.inp = printAllMy es → readAll (nextMy atof) fuel x =
      some (es.map fun p => (p.1.ns, p.1.t, norm p.1.mat, atof (showNat p.2))) from this _ rfl
  intro x hx
  induction es generalizing fuel x with
  | nil =>
    cases fuel with
    | zero => simp at hf
    | succ fuel =>
      have : nextMy atof x = some ({ x with ns := [], t := [], mat := WordAlig.empty }, false) := by
        unfold nextMy
        rw [hx]; rfl
      rw [readAll, this]; rfl
  | cons p es ih =>
    cases fuel with
    | zero => simp at hf
    | succ fuel =>
      obtain ⟨line, hl⟩ := next_my atof p.1 (h p List.mem_cons_self) p.2 x (printAllMy es) hx
      rw [readAll, hl]
      simp only [if_true]
      rw [ih (fun q hq => h q (List.mem_cons_of_mem _ hq)) fuel (by simp at hf; omega) _ rfl]
      rfl

example : ∀ p ∈ exEntries.map (fun e => (e, 3)), MyOk p.1 := by
  intro p hp
  simp only [exEntries, List.map_cons, List.map_nil, List.mem_cons, List.not_mem_nil, or_false] at hp
  have small : ∀ i j, (if i = 0 ∧ j = 0 then 1 else if i = 1 ∧ j = 2 then 2 else 0 : Nat) < 2 ^ 31 := by
    intro i j
    split
    · decide
    · split <;> decide
  rcases hp with rfl | rfl
  · exact ⟨by decide, by decide, by decide, rfl, rfl, fun i j _ _ => small i j⟩
  · exact ⟨by decide, by decide, by decide, rfl, rfl, fun i j _ _ => (by decide : (0 : Nat) < 2 ^ 31)⟩

example : String.ofList (printAllMy (exEntries.map fun e => (e, 3))) =
    "# 3\nthe big house\nNULL la casa\n0 0 2 \n1 0 0 \n# 3\n\nNULL })\n\n" := by decide +kernel

end Thot.AligFile
