import Verif.AligFile.Model
import Verif.Awk.Props
import Verif.Vocab.Props
import Verif.SentHandler.Props
import Verif.WordAlig.Props
/-! C162: alignment files in GIZA format. -/
namespace Thot.AligFile
open Thot.WordAlig (Mat)
open Thot.Vocab (showNat atoi toWordIndex showNat_digits showNat_ne_nil atoi_showNat digit_dig)
open Thot.SentHandler (joinWords Word Line fields_join line_join cut_word)

/-! ### Specification -/

/-- A word-aligned sentence pair: source sentence with the null word, target sentence, matrix, number of repetitions. -/
structure Entry where
  ns : Sent
  t : Sent
  mat : Mat
  reps : Rat

/-- The matrix with the cells that exist; the others are zero. -/
def norm (A : Mat) : Mat := ⟨A.I, A.J, fun i j => if i < A.I ∧ j < A.J then A.m i j else 0⟩

/-- The words can be written (not empty, no blank, newline or NUL), no source word is `({`, and the matrix has the sizes of
the sentences. -/
def EntryOk (e : Entry) : Prop :=
  e.ns ≠ [] ∧ (∀ w ∈ e.ns, Word w ∧ w ≠ ['(', '{']) ∧ (∀ w ∈ e.t, Word w) ∧
  e.mat.I = e.ns.length - 1 ∧ e.mat.J = e.t.length ∧ e.t.length < 2 ^ 31 - 1

/-- A file: the entries one after another, with headers `# <repetitions>`. -/
def printAll (fmt : Rat → Str) : List Entry → Option Str
  | [] => some []
  | e :: es => match printGiza (['#', ' '] ++ fmt e.reps) e.ns e.t e.mat, printAll fmt es with
    | some a, some b => some (a ++ b)
    | _, _ => none

/-! ### Fields -/

theorem fields_sp {ws : List Str} (h : ∀ w ∈ ws, Word w) : Awk.fields ' ' (ws.flatMap (· ++ [' '])) = ws := by
  induction ws with
  | nil => simp [Awk.fields, Awk.cut]
  | cons w ws ih =>
    have hw := h w List.mem_cons_self
    have hne : (!w.isEmpty) = true := by cases w with | nil => exact absurd rfl hw.1 | cons => rfl
    have := ih (fun x hx => h x (List.mem_cons_of_mem _ hx))
    rw [List.flatMap_cons, List.append_assoc, List.singleton_append]
    unfold Awk.fields at *
    rw [cut_word (fun c hc => (hw.2 c hc).1), List.filter_cons_of_pos (by simpa using hne), this]

theorem line_sp {ws : List Str} (h : ∀ w ∈ ws, Word w) : Line (ws.flatMap (· ++ [' '])) := by
  intro c hc
  obtain ⟨w, hw, hc⟩ := List.mem_flatMap.1 hc
  rcases List.mem_append.1 hc with hc | hc
  · exact ((h w hw).2 c hc).2
  · rw [List.mem_singleton] at hc; subst hc; decide

theorem word_showNat (n : Nat) : Word (showNat n) := by
  refine ⟨showNat_ne_nil n, ?_⟩
  intro c hc
  obtain ⟨m, rfl⟩ := showNat_digits n c hc
  have := digit_dig m
  refine ⟨this.2.2.1, ?_, ?_⟩
  · intro hc
    have h1 := this.1
    rw [hc] at h1; exact absurd h1 (by decide)
  · intro hc
    have h1 := this.1
    rw [hc] at h1; exact absurd h1 (by decide)

theorem showNat_ne_cl (n : Nat) : showNat n ≠ clBr := by
  intro h
  have : '}' ∈ showNat n := by rw [h]; decide
  obtain ⟨m, hm⟩ := showNat_digits n _ this
  have h1 := (digit_dig m).1
  rw [← hm] at h1; exact absurd h1 (by decide)

theorem showNat_ne_op (n : Nat) : showNat n ≠ opBr := by
  intro h
  have : '{' ∈ showNat n := by rw [h]; decide
  obtain ⟨m, hm⟩ := showNat_digits n _ this
  have h1 := (digit_dig m).1
  rw [← hm] at h1; exact absurd h1 (by decide)

/-- The fields of the current line. -/
def flds (x : Ext) : List Str := Awk.fields ' ' x.line

theorem nf_eq (x : Ext) : nf x = (flds x).length := Awk.C41_NF ' ' x.line

theorem dollar_eq (x : Ext) (n : Nat) : dollar x (n + 1) = (flds x)[n]?.getD [] := (Awk.C41_dollar ' ' x.line).2 n

theorem allFields_eq (x : Ext) : allFields x = flds x := by
  unfold allFields
  apply List.ext_getElem
  · simp [nf_eq]
  · intro i h1 h2
    simp [dollar_eq, List.getElem?_eq_getElem h2]

theorem dollar_at (x : Ext) (pre post : List Str) (w : Str) (h : flds x = pre ++ w :: post) : dollar x (pre.length + 1) = w := by
  rw [dollar_eq, h]; simp

theorem nf_at (x : Ext) (pre post : List Str) (w : Str) (h : flds x = pre ++ w :: post) : pre.length + 1 ≤ nf x := by
  rw [nf_eq, h]; simp

/-! ### Tokens of the source line -/

/-- The numbers printed after word `i`. -/
def nums (A : Mat) : Nat → List Nat
  | 0 => ((List.range A.J).filter fun j => !WordAlig.jAligned A.I A.m j).map (· + 1)
  | i + 1 => (List.range A.J).flatMap fun j => List.replicate (A.m i j) (j + 1)

def toks (A : Mat) : Nat → Sent → List Str
  | _, [] => []
  | i, w :: ws => w :: opBr :: ((nums A i).map showNat ++ clBr :: toks A (i + 1) ws)

theorem nums_le (A : Mat) (i n : Nat) (h : n ∈ nums A i) : 1 ≤ n ∧ n ≤ A.J := by
  cases i with
  | zero =>
    obtain ⟨j, hj, rfl⟩ := List.mem_map.1 h
    have := List.mem_range.1 (List.mem_filter.1 hj).1
    omega
  | succ i =>
    obtain ⟨j, hj, h⟩ := List.mem_flatMap.1 h
    have h1 := (List.mem_replicate.1 h).2
    have := List.mem_range.1 hj
    omega

theorem printLinks_eq (A : Mat) (i : Nat) (h : i ≤ A.I) :
    printLinks A i = some (((nums A i).map showNat).flatMap (· ++ [' '])) := by
  cases i with
  | zero =>
    unfold printLinks nums
    rw [if_pos rfl, List.map_map]
    congr 1
    generalize List.range A.J = l
    induction l with
    | nil => rfl
    | cons j l ih =>
      rw [List.flatMap_cons, ih, List.filter_cons]
      cases WordAlig.jAligned A.I A.m j <;> simp
  | succ i =>
    unfold printLinks nums
    rw [if_neg (by omega)]
    split
    · next hz => rw [hz]; rfl
    · rw [if_pos (by omega), List.map_flatMap]
      congr 1
      generalize List.range A.J = l
      induction l with
      | nil => rfl
      | cons j l ih =>
        rw [List.flatMap_cons, List.flatMap_cons, List.flatMap_append, ih, List.map_replicate]
        congr 1
        simp only [Nat.add_sub_cancel]
        generalize A.m i j = n
        induction n with
        | zero => rfl
        | succ n ihn => rw [List.replicate_succ, List.flatten_cons, ihn, List.replicate_succ, List.flatMap_cons]

theorem printSrc_eq (A : Mat) (ns : Sent) (i : Nat) (h : i + ns.length ≤ A.I + 1) :
    printSrc A i ns = some ((toks A i ns).flatMap (· ++ [' '])) := by
  induction ns generalizing i with
  | nil => rfl
  | cons w ws ih =>
    simp only [List.length_cons] at h
    rw [printSrc, printLinks_eq A i (by omega), ih (i + 1) (by omega)]
    simp only [toks, List.flatMap_cons, List.flatMap_append]
    congr 1
    simp [opBr, clBr]

theorem toks_word (A : Mat) (ns : Sent) (i : Nat) (h : ∀ w ∈ ns, Word w) : ∀ w ∈ toks A i ns, Word w := by
  induction ns generalizing i with
  | nil => intro w hw; cases hw
  | cons v ws ih =>
    intro w hw
    simp only [toks, List.mem_cons, List.mem_append] at hw
    rcases hw with rfl | rfl | hw | rfl | hw
    · exact h _ List.mem_cons_self
    · exact ⟨by decide, by decide⟩
    · obtain ⟨n, _, rfl⟩ := List.mem_map.1 hw; exact word_showNat n
    · exact ⟨by decide, by decide⟩
    · exact ih (i + 1) (fun x hx => h x (List.mem_cons_of_mem _ hx)) w hw

theorem toks_count (A : Mat) (ns : Sent) (i : Nat) (h : ∀ w ∈ ns, w ≠ opBr) : (toks A i ns).countP (· == opBr) = ns.length := by
  induction ns generalizing i with
  | nil => rfl
  | cons v ws ih =>
    simp only [toks, List.countP_cons, List.countP_append, List.length_cons]
    rw [ih (i + 1) (fun x hx => h x (List.mem_cons_of_mem _ hx))]
    have h1 : (v == opBr) = false := by simpa using h v List.mem_cons_self
    have h2 : List.countP (· == opBr) ((nums A i).map showNat) = 0 := by
      rw [List.countP_eq_zero]
      intro w hw
      obtain ⟨n, _, rfl⟩ := List.mem_map.1 hw
      simpa using showNat_ne_op n
    rw [h1, h2]
    simp [clBr, opBr]

/-! ### Reading the links of a word -/

theorem pred32_succ (n : Nat) (h1 : 1 ≤ n) (h2 : n < 2 ^ 31) : pred32 n = n - 1 := by
  unfold pred32
  have e : n + (2 ^ 32 - 1) = (n - 1) + 2 ^ 32 := by omega
  rw [e, Nat.add_mod_right, Nat.mod_eq_of_lt]
  omega

theorem readLinks_eq (x : Ext) (sp : Nat) (l : List Nat) (pre post : List Str)
    (h : flds x = pre ++ (l.map showNat ++ clBr :: post)) (hl : ∀ n ∈ l, 1 ≤ n ∧ n ≤ x.t.length) (ht : x.t.length < 2 ^ 31 - 1)
    (fuel : Nat) (hf : l.length < fuel) (A : Mat) :
    readLinks x sp fuel (pre.length + 1) A = .done (l.foldl (fun B n => addLink B sp n) A) (pre.length + l.length + 1) := by
  induction l generalizing pre fuel A with
  | nil =>
    cases fuel with
    | zero => simp at hf
    | succ fuel =>
      simp only [List.map_nil, List.nil_append] at h
      rw [readLinks, dollar_at x pre post clBr h, if_neg (by simp)]
      rfl
  | cons n l ih =>
    cases fuel with
    | zero => simp at hf
    | succ fuel =>
      simp only [List.map_cons, List.cons_append] at h
      have hn := hl n List.mem_cons_self
      rw [readLinks, dollar_at x pre _ _ h, if_pos ⟨nf_at x pre _ _ h, showNat_ne_cl n⟩, atoi_showNat n (by omega)]
      have hw : toWordIndex (n : Int) = n := by
        unfold toWordIndex
        have : (n : Int) % 2 ^ 32 = n := Int.emod_eq_of_lt (by omega) (by omega)
        rw [this]; rfl
      simp only [hw]
      rw [pred32_succ n hn.1 (by omega), if_neg (by omega)]
      have h' : flds x = (pre ++ [showNat n]) ++ (l.map showNat ++ clBr :: post) := by rw [h]; simp
      have := ih (pre ++ [showNat n]) h' (fun m hm => hl m (List.mem_cons_of_mem _ hm)) fuel (by simp at hf; omega) (addLink A sp n)
      rw [List.length_append, List.length_singleton] at this
      rw [this, List.foldl_cons, List.length_cons]
      congr 1; omega

/-! ### The matrix -/

theorem addLinks_zero (l : List Nat) (A : Mat) : l.foldl (fun B n => addLink B 0 n) A = A := by
  induction l with
  | nil => rfl
  | cons n l ih => rw [List.foldl_cons, addLink, if_neg (by omega), ih]

theorem addLinks_eq (i : Nat) (l : List Nat) (A : Mat) (hi : i < A.I) (hl : ∀ n ∈ l, 1 ≤ n ∧ n ≤ A.J) (hJ : A.J < 2 ^ 31) :
    l.foldl (fun B n => addLink B (i + 1) n) A =
      ⟨A.I, A.J, fun a b => A.m a b + if a = i then l.count (b + 1) else 0⟩ := by
  induction l generalizing A with
  | nil => simp
  | cons n l ih =>
    have hn := hl n List.mem_cons_self
    have e : addLink A (i + 1) n = ⟨A.I, A.J, WordAlig.upd A.m i (n - 1) (A.m i (n - 1) + 1)⟩ := by
      unfold addLink
      rw [pred32_succ n hn.1 (by omega), if_pos ⟨by omega, by omega, by omega⟩]
      unfold WordAlig.setValue
      rw [if_pos ⟨by omega, by omega⟩]; rfl
    rw [List.foldl_cons, e, ih ⟨A.I, A.J, WordAlig.upd A.m i (n - 1) (A.m i (n - 1) + 1)⟩ hi (fun m hm => hl m (List.mem_cons_of_mem _ hm)) hJ]
    congr 1
    funext a b
    simp only [WordAlig.upd, List.count_cons]
    by_cases ha : a = i
    · subst ha
      by_cases hb : b = n - 1
      · subst hb
        have : n - 1 + 1 = n := by omega
        simp [this]; omega
      · have : ¬ n = b + 1 := by omega
        simp [hb, this]
    · simp [ha]

theorem count_nums (A : Mat) (i b : Nat) : (nums A (i + 1)).count (b + 1) = if b < A.J then A.m i b else 0 := by
  have e : nums A (i + 1) = (List.range A.J).flatMap fun j => List.replicate (A.m i j) (j + 1) := rfl
  rw [e]
  clear e
  generalize A.J = J
  induction J with
  | zero => rfl
  | succ J ih =>
    rw [List.range_succ, List.flatMap_append, List.count_append, ih]
    simp only [List.flatMap_cons, List.flatMap_nil, List.append_nil, List.count_replicate]
    by_cases h1 : b = J
    · subst h1; simp
    · have h2 : (J + 1 == b + 1) = false := by simpa using fun h => h1 h.symm
      by_cases h3 : b < J
      · rw [h2]; simp [h3, Nat.lt_succ_of_lt h3]
      · rw [h2]
        have : ¬ b < J + 1 := by omega
        simp [h3, this]

/-- The matrix when the links of the first `k` words have been read. -/
def stage (A : Mat) (k : Nat) : Mat := ⟨A.I, A.J, fun a b => if a + 1 < k ∧ a < A.I ∧ b < A.J then A.m a b else 0⟩

theorem stage_zero (A : Mat) : stage A 0 = WordAlig.init A.I A.J := by unfold stage WordAlig.init; simp

theorem stage_all (A : Mat) (k : Nat) (h : A.I < k) : stage A k = norm A := by
  unfold stage norm
  congr 1
  funext a b
  by_cases hc : a < A.I ∧ b < A.J
  · rw [if_pos hc, if_pos ⟨by omega, hc⟩]
  · rw [if_neg hc, if_neg (fun h => hc h.2)]

theorem stage_step (A : Mat) (k : Nat) (hk : k ≤ A.I) (hJ : A.J < 2 ^ 31) :
    (nums A k).foldl (fun B n => addLink B k n) (stage A k) = stage A (k + 1) := by
  cases k with
  | zero =>
    rw [addLinks_zero]
    unfold stage
    simp
  | succ i =>
    rw [addLinks_eq i (nums A (i + 1)) (stage A (i + 1)) (show i < A.I by omega) (nums_le A _) hJ]
    unfold stage
    congr 1
    funext a b
    simp only [count_nums]
    by_cases ha : a = i
    · subst ha
      rw [if_neg (by omega), if_pos rfl]
      by_cases hb : b < A.J
      · rw [if_pos hb, if_pos ⟨by omega, by omega, hb⟩, Nat.zero_add]
      · rw [if_neg hb, if_neg (fun h => hb h.2.2)]
    · rw [if_neg ha, Nat.add_zero]
      by_cases hc : a + 1 < i + 1 ∧ a < A.I ∧ b < A.J
      · rw [if_pos hc, if_pos ⟨by omega, hc.2⟩]
      · rw [if_neg hc, if_neg (fun h => hc ⟨by omega, h.2⟩)]

/-! ### Reading an entry -/

theorem readWords_eq (A : Mat) (ws : Sent) (pre : List Str) (k : Nat) (x : Ext) (h : flds x = pre ++ toks A k ws)
    (hm : x.mat = stage A k) (hk : k + ws.length = A.I + 1) (hJ : A.J = x.t.length) (ht : x.t.length < 2 ^ 31 - 1)
    (fuel : Nat) (hf : ws.length < fuel) :
    readWords fuel (pre.length + 1) k x = some { x with mat := norm A, ns := x.ns ++ ws } := by
  induction ws generalizing pre k x fuel with
  | nil =>
    cases fuel with
    | zero => simp at hf
    | succ fuel =>
      have : ¬ pre.length + 1 ≤ nf x := by rw [nf_eq, h]; simp [toks]
      rw [readWords, if_neg this]
      have e : norm A = x.mat := by rw [hm, stage_all A k (by simp at hk; omega)]
      rw [e]; simp
  | cons w ws ih =>
    cases fuel with
    | zero => simp at hf
    | succ fuel =>
      simp only [toks] at h
      simp only [List.length_cons] at hk hf
      have h1 : flds x = (pre ++ [w]) ++ opBr :: ((nums A k).map showNat ++ clBr :: toks A (k + 1) ws) := by rw [h]; simp
      have h2 : flds x = (pre ++ [w, opBr]) ++ ((nums A k).map showNat ++ clBr :: toks A (k + 1) ws) := by rw [h]; simp
      have h3 : flds x = (pre ++ (w :: opBr :: ((nums A k).map showNat ++ [clBr]))) ++ toks A (k + 1) ws := by rw [h]; simp
      have d1 := dollar_at x _ _ _ h1
      rw [List.length_append, List.length_singleton] at d1
      have s1 : skipToOpen x (nf x + 1) (pre.length + 1 + 1) = pre.length + 1 + 1 := by
        rw [skipToOpen, d1, if_neg (by simp)]
      have r1 := readLinks_eq x k (nums A k) (pre ++ [w, opBr]) _ h2 (fun n hn => by have := nums_le A k n hn; omega) ht
        (nf x + 1) (by rw [nf_eq, h]; simp; omega) x.mat
      rw [show (pre ++ [w, opBr]).length + 1 = pre.length + 1 + 1 + 1 from by simp] at r1
      rw [readWords, if_pos (nf_at x pre _ _ h), s1, r1]
      simp only
      rw [d1, if_pos rfl, dollar_at x pre _ _ h, hm, stage_step A k (by omega) (by omega)]
      have := ih (pre ++ (w :: opBr :: ((nums A k).map showNat ++ [clBr]))) (k + 1)
        { x with mat := stage A (k + 1), ns := x.ns ++ [w] } h3 rfl (by omega) hJ ht fuel (by omega)
      have e : (pre ++ (w :: opBr :: ((nums A k).map showNat ++ [clBr]))).length + 1 =
          (pre ++ [w, opBr]).length + (nums A k).length + 1 + 1 := by simp; omega
      rw [e] at this
      rw [this]
      simp

theorem word_hash : Word ['#'] := ⟨by decide, by decide⟩

/-- The text of an entry. -/
def textOf (header : Str) (e : Entry) : Str :=
  header ++ '\n' :: (joinWords e.t ++ '\n' :: ((toks e.mat 0 e.ns).flatMap (· ++ [' ']) ++ ['\n']))

theorem print_text (header : Str) (e : Entry) (h : EntryOk e) : printGiza header e.ns e.t e.mat = some (textOf header e) := by
  obtain ⟨h1, _, _, h4, _, _⟩ := h
  have := List.length_pos_iff.2 h1
  unfold printGiza
  rw [printSrc_eq e.mat e.ns 0 (by omega)]; rfl

/-- The number of repetitions read from a header with the given fields. -/
def repsOf (atof : Str → Rat) (hs : List Str) : Rat := if hs.length = 2 then atof (hs[1]?.getD []) else 1

/-- Reading an entry with a header whose first field is `#`. -/
theorem next_text (atof : Str → Rat) (e : Entry) (h : EntryOk e) (hs : List Str) (hw : ∀ w ∈ hs, Word w) (x : Ext)
    (rest : Str) (hx : x.inp = textOf (joinWords (['#'] :: hs)) e ++ rest) :
    nextGiza atof x = some (⟨e.ns, e.t, norm e.mat, repsOf atof (['#'] :: hs), (toks e.mat 0 e.ns).flatMap (· ++ [' ']), rest⟩, true) := by
  obtain ⟨h1, h2, h3, h4, h5, h6⟩ := h
  have hpos := List.length_pos_iff.2 h1
  have hw1 : ∀ w ∈ ['#'] :: hs, Word w := by
    intro w hm
    rcases List.mem_cons.1 hm with rfl | hm
    · exact word_hash
    · exact hw w hm
  have htw := toks_word e.mat e.ns 0 (fun w hm => (h2 w hm).1)
  have g1 : Awk.getln x.inp = some (joinWords (['#'] :: hs), joinWords e.t ++ '\n' :: ((toks e.mat 0 e.ns).flatMap (· ++ [' ']) ++ '\n' :: rest)) := by
    rw [hx]
    have : textOf (joinWords (['#'] :: hs)) e ++ rest = joinWords (['#'] :: hs) ++ '\n' ::
        (joinWords e.t ++ '\n' :: ((toks e.mat 0 e.ns).flatMap (· ++ [' ']) ++ '\n' :: rest)) := by simp [textOf]
    rw [this, Awk.getln_nl _ _ (line_join hw1)]
  have g2 := Awk.getln_nl (joinWords e.t) ((toks e.mat 0 e.ns).flatMap (· ++ [' ']) ++ '\n' :: rest) (line_join h3)
  have g3 := Awk.getln_nl ((toks e.mat 0 e.ns).flatMap (· ++ [' '])) rest (line_sp htw)
  unfold nextGiza
  rw [g1]
  simp only
  have f1 : ∀ y : Ext, y.line = joinWords (['#'] :: hs) → flds y = ['#'] :: hs := fun y hy => by
    unfold flds; rw [hy, fields_join hw1]
  rw [if_pos (by
    refine ⟨?_, .inl ?_⟩
    · rw [nf_eq, f1 _ rfl]; simp
    · rw [dollar_eq _ 0, f1 _ rfl]; rfl)]
  have hr : ∀ y : Ext, y.line = joinWords (['#'] :: hs) → headerReps atof y = repsOf atof (['#'] :: hs) := by
    intro y hy
    unfold headerReps repsOf
    rw [nf_eq, f1 y hy, dollar_eq _ 1, f1 y hy]
    by_cases hc : (['#'] :: hs).length = 2
    · rw [if_pos hc, if_neg (by omega), if_neg (by omega)]
    · rw [if_neg hc]
      split
      · rfl
      · next hn =>
        rw [if_pos]
        simp only [List.length_cons] at hc hn ⊢; omega
  rw [hr _ rfl]
  unfold getlnKeep
  simp only
  rw [g2]
  simp only
  rw [g3]
  simp only
  rw [allFields_eq]
  have f2 : ∀ y : Ext, y.line = joinWords e.t → flds y = e.t := fun y hy => by unfold flds; rw [hy, fields_join h3]
  have f3 : ∀ y : Ext, y.line = (toks e.mat 0 e.ns).flatMap (· ++ [' ']) → flds y = toks e.mat 0 e.ns := fun y hy => by
    unfold flds; rw [hy, fields_sp htw]
  rw [f2 _ rfl]
  have hc : ∀ y : Ext, y.line = (toks e.mat 0 e.ns).flatMap (· ++ [' ']) → countOpen y = e.ns.length := by
    intro y hy
    unfold countOpen
    rw [allFields_eq, f3 y hy, toks_count e.mat e.ns 0 (fun w hm => (h2 w hm).2)]
  rw [hc _ rfl, if_neg (by omega)]
  have := readWords_eq e.mat e.ns [] 0 ⟨[], e.t, WordAlig.init (e.ns.length - 1) e.t.length, repsOf atof (['#'] :: hs),
    (toks e.mat 0 e.ns).flatMap (· ++ [' ']), rest⟩ (by rw [f3 _ rfl]; rfl) (by rw [stage_zero, h4, h5]) (by omega) h5 h6
  simp only [List.length_nil, Nat.zero_add, List.nil_append] at this
  rw [this _ (by
    rw [nf_eq, f3 _ rfl]
    have : ∀ (k : Nat) (ws : Sent), ws.length ≤ (toks e.mat k ws).length := by
      intro k ws
      induction ws generalizing k with
      | nil => simp
      | cons w ws ih => have := ih (k + 1); simp [toks]; omega
    have := this 0 e.ns
    omega)]
  rfl

/-! ### C162 -/

theorem header_eq (f : Str) : ['#', ' '] ++ f = joinWords [['#'], f] := rfl

theorem print_all_cons (fmt : Rat → Str) (e : Entry) (es : List Entry) (h : EntryOk e) (f : Str) (hf : printAll fmt es = some f) :
    printAll fmt (e :: es) = some (textOf (['#', ' '] ++ fmt e.reps) e ++ f) := by
  rw [printAll, print_text _ e h, hf]

theorem print_all_some (fmt : Rat → Str) (es : List Entry) (h : ∀ e ∈ es, EntryOk e) : ∃ f, printAll fmt es = some f := by
  induction es with
  | nil => exact ⟨[], rfl⟩
  | cons e es ih =>
    obtain ⟨f, hf⟩ := ih (fun x hx => h x (List.mem_cons_of_mem _ hx))
    exact ⟨_, print_all_cons fmt e es (h e List.mem_cons_self) f hf⟩

/-- **C162 (partial).** Any list of word-aligned sentence pairs with writable words can be printed as a file in GIZA format, and
reading the file returns exactly these sentence pairs in the same order: the same sentences, the same matrices (also the
counts greater than one) and the number of repetitions that was printed. Missing with respect to `C162_full`: the source words
`({`. -/
theorem C162_giza_round_trip_partial (fmt : Rat → Str) (atof : Str → Rat) (hf : ∀ x, Word (fmt x)) (es : List Entry)
    (h : ∀ e ∈ es, EntryOk e) (fuel : Nat) (hfu : es.length < fuel) :
    ∃ file, printAll fmt es = some file ∧
      readAll (nextGiza atof) fuel (openFile file) = some (es.map fun e => (e.ns, e.t, norm e.mat, atof (fmt e.reps))) := by
  obtain ⟨f, hp⟩ := print_all_some fmt es h
  refine ⟨f, hp, ?_⟩
  suffices ∀ x : Ext, x.inp = f → readAll (nextGiza atof) fuel x = some (es.map fun e => (e.ns, e.t, norm e.mat, atof (fmt e.reps))) from
    this _ rfl
  intro x hx
  induction es generalizing f fuel x with
  | nil =>
    cases fuel with
    | zero => simp at hfu
    | succ fuel =>
      injection hp with hp
      rw [readAll]
      have : nextGiza atof x = some ({ x with ns := [], t := [] }, false) := by
        unfold nextGiza
        rw [hx, ← hp]; rfl
      rw [this]; rfl
  | cons e es ih =>
    cases fuel with
    | zero => simp at hfu
    | succ fuel =>
      have he := h e List.mem_cons_self
      obtain ⟨f', hf'⟩ := print_all_some fmt es (fun x hx => h x (List.mem_cons_of_mem _ hx))
      rw [print_all_cons fmt e es he f' hf'] at hp
      injection hp with hp
      have := next_text atof e he [fmt e.reps] (by intro w hw; rw [List.mem_singleton] at hw; rw [hw]; exact hf _) x f'
        (by rw [hx, ← hp]; rfl)
      rw [readAll, this]
      simp only [if_true]
      rw [ih (fun x hx => h x (List.mem_cons_of_mem _ hx)) fuel (by simp at hfu; omega) f' hf' _ rfl]
      rfl

/-- The same for any words without blanks. (With a source word `({` the matrix gets a row too many.) -/
def C162_full : Prop :=
  ∀ (fmt : Rat → Str) (atof : Str → Rat), (∀ x, Word (fmt x)) → ∀ es : List Entry,
    (∀ e ∈ es, e.ns ≠ [] ∧ (∀ w ∈ e.ns, Word w) ∧ (∀ w ∈ e.t, Word w) ∧ e.mat.I = e.ns.length - 1 ∧ e.mat.J = e.t.length ∧
      e.t.length < 2 ^ 31 - 1) → ∃ file, printAll fmt es = some file ∧
      readAll (nextGiza atof) (es.length + 1) (openFile file) = some (es.map fun e => (e.ns, e.t, norm e.mat, atof (fmt e.reps)))

def exFmt : Rat → Str := fun x => if x = 2 then ['2'] else ['1']
def exAtof : Str → Rat := fun s => if s = ['2'] then 2 else 1

instance (w : Str) : Decidable (Word w) := by unfold Word; infer_instance

def exBad : List Entry := [⟨["NULL".toList, "({".toList], ["x".toList], ⟨1, 1, fun _ _ => 1⟩, 1⟩]

theorem C162_counterexample : ¬ C162_full := by
  intro h
  obtain ⟨file, h1, h2⟩ := h exFmt exAtof (by intro x; unfold exFmt; split <;> exact ⟨by decide, by decide⟩) exBad (by
    intro e he
    rw [exBad, List.mem_singleton] at he
    subst he
    exact ⟨by decide, by decide, by decide, rfl, rfl, by decide⟩)
  have e : printAll exFmt exBad = some "# 1\nx\nNULL ({ }) ({ ({ 1 }) \n".toList := by decide +kernel
  rw [e] at h1
  injection h1 with h1
  subst h1
  have := congrArg (fun r => r.map fun l => l.map fun q => q.2.2.1.I) h2
  revert this
  decide +kernel

/-! Example: three links, one of them with count 2, and a second entry with an empty target sentence. -/

def exEntries : List Entry :=
  [⟨["NULL".toList, "la".toList, "casa".toList], ["the".toList, "big".toList, "house".toList],
    ⟨2, 3, fun i j => if i = 0 ∧ j = 0 then 1 else if i = 1 ∧ j = 2 then 2 else 0⟩, 2⟩,
   ⟨["NULL".toList, "})".toList], [], ⟨1, 0, fun _ _ => 0⟩, 1⟩]

example : ∀ e ∈ exEntries, EntryOk e := by
  intro e he
  simp only [exEntries, List.mem_cons, List.not_mem_nil, or_false] at he
  rcases he with rfl | rfl
  · exact ⟨by decide, by decide, by decide, rfl, rfl, by decide⟩
  · exact ⟨by decide, by decide, by decide, rfl, rfl, by decide⟩

example : (printAll exFmt exEntries).map String.ofList =
    some "# 2\nthe big house\nNULL ({ 2 }) la ({ 1 }) casa ({ 3 3 }) \n# 1\n\nNULL ({ }) }) ({ }) \n" := by decide +kernel

end Thot.AligFile
