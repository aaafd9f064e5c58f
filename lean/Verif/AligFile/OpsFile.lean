import Verif.AligFile.Ops
/-! C165: files of operations. -/
namespace Thot.AligFile
open Thot.WordAlig (Mat)
open Thot.Vocab (showNat atoi toWordIndex)
open Thot.SentHandler (joinWords Word Line fields_join line_join)

/-! ### Specification -/

/-- A line of a file of operations: an operation, a blank line, or three words of which the first is not the name of an
operation. -/
inductive OLine where
  | op (o : Opn) (name : Str) (tr : Bool)
  | blank (n : Nat)
  | bad (w1 w2 w3 : Str)

def opnName : Opn → Str
  | .and => "-and".toList
  | .or => "-or".toList
  | .sum => "-sum".toList
  | .sym1 => "-sym1".toList
  | .sym2 => "-sym2".toList
  | .grd => "-grd".toList

def lineText : OLine → Str
  | .op o name tr => joinWords [opnName o, name, if tr then ['1'] else ['0']]
  | .blank n => List.replicate n ' '
  | .bad w1 w2 w3 => joinWords [w1, w2, w3]

def isOp : OLine → Bool
  | .op _ _ _ => true
  | _ => false

def isBad : OLine → Bool
  | .bad _ _ _ => true
  | _ => false

def textOfOps (ls : List OLine) : Str := ls.flatMap fun l => lineText l ++ ['\n']

/-- The operations are done one after another; the other lines do nothing. -/
inductive Chain (atof : Str → Rat) (fmt : Rat → Str) (fs : Str → Option Str) : List Entry → List OLine → List Entry → Prop
  | nil (as : List Entry) : Chain atof fmt fs as [] as
  | skip {as ls rs} (l : OLine) : isOp l = false → Chain atof fmt fs as ls rs → Chain atof fmt fs as (l :: ls) rs
  | op {as ls rs} (o : Opn) (name : Str) (tr : Bool) (bs ms : List Entry) : (printAll fmt bs = fs name ∧ ∀ e ∈ bs, EntryOk e) →
      OpResult atof fmt o tr as bs ms → Chain atof fmt fs ms ls rs → Chain atof fmt fs as (.op o name tr :: ls) rs

/-- The lines are well formed: the files of the operations exist (and are not the output file) and were written from entries; words
are not empty and have no blanks. -/
def LineOk (fmt : Rat → Str) (fs : Str → Option Str) (outName : Str) : OLine → Prop
  | .op _ name _ => Word name ∧ name ≠ outName ∧ ∃ bs f, printAll fmt bs = some f ∧ fs name = some f ∧ ∀ e ∈ bs, EntryOk e
  | .blank _ => True
  | .bad w1 w2 w3 => Word w1 ∧ Word w2 ∧ Word w3 ∧ (∀ o, w1 ≠ opnName o) ∧ atoi w3 ≠ none

/-! ### Proofs -/

theorem opnOf_name (o : Opn) : opnOf (opnName o) = some o := by cases o <;> decide

theorem opnOf_none (w : Str) (h : ∀ o, w ≠ opnName o) : opnOf w = none := by
  unfold opnOf
  rw [if_neg (show ¬ w = "-and".toList from h .and), if_neg (show ¬ w = "-or".toList from h .or),
    if_neg (show ¬ w = "-sum".toList from h .sum), if_neg (show ¬ w = "-sym1".toList from h .sym1),
    if_neg (show ¬ w = "-sym2".toList from h .sym2), if_neg (show ¬ w = "-grd".toList from h .grd)]

theorem runOps_cons (atof : Str → Rat) (fmt : Rat → Str) (mf fuel : Nat) (fs : Str → Option Str) (outName : Str) (l : Str)
    (ls : List Str) (cur : Str) (out : Option Str) :
    runOps atof fmt mf fuel fs outName (l :: ls) cur out =
    (if Awk.getNF ' ' l = 3 then
      match atoi (Awk.dollar ' ' l 3) with
      | none => .undef
      | some tr => match opnOf (Awk.dollar ' ' l 1) with
        | some o =>
          match (if Awk.dollar ' ' l 2 = outName then some [] else fs (Awk.dollar ' ' l 2)) with
          | none => .error (some [])
          | some other => match opFiles atof fmt mf o (tr != 0) fuel cur other with
            | none => .undef
            | some res => runOps atof fmt mf fuel fs outName ls res (some res)
        | none => match out with
          | none => .error none
          | some c => runOps atof fmt mf fuel fs outName ls c (some c)
    else if Awk.getNF ' ' l ≠ 0 then .error out
    else runOps atof fmt mf fuel fs outName ls cur out) := rfl

theorem opnName_word (o : Opn) : Word (opnName o) := by cases o <;> exact ⟨by decide, by decide⟩

theorem flag_word (tr : Bool) : Word (if tr then ['1'] else ['0']) := by cases tr <;> exact ⟨by decide, by decide⟩

theorem fields_blank (n : Nat) : Awk.fields ' ' (List.replicate n ' ') = [] := by
  induction n with
  | zero => exact Awk.fields_nil ' '
  | succ n ih => rw [List.replicate_succ, Awk.fields_sep, ih]

theorem three (w1 w2 w3 : Str) (h1 : Word w1) (h2 : Word w2) (h3 : Word w3) :
    Awk.getNF ' ' (joinWords [w1, w2, w3]) = 3 ∧ Awk.dollar ' ' (joinWords [w1, w2, w3]) 1 = w1 ∧
    Awk.dollar ' ' (joinWords [w1, w2, w3]) 2 = w2 ∧ Awk.dollar ' ' (joinWords [w1, w2, w3]) 3 = w3 := by
  have hf : Awk.fields ' ' (joinWords [w1, w2, w3]) = [w1, w2, w3] := fields_join (by
    intro w hw
    simp only [List.mem_cons, List.not_mem_nil, or_false] at hw
    rcases hw with rfl | rfl | rfl <;> assumption)
  have hd := (Awk.C41_dollar ' ' (joinWords [w1, w2, w3])).2
  refine ⟨by rw [Awk.C41_NF, hf]; rfl, ?_, ?_, ?_⟩
  · rw [hd 0, hf]; rfl
  · rw [hd 1, hf]; rfl
  · rw [hd 2, hf]; rfl

/-- From the first operation on: the output file is the file being operated. -/
theorem run_started (atof : Str → Rat) (fmt : Rat → Str) (hf : ∀ x, Word (fmt x)) (fs : Str → Option Str) (outName : Str)
    (ls : List OLine) (hl : ∀ l ∈ ls, LineOk fmt fs outName l) (as : List Entry) (ha : ∀ e ∈ as, EntryOk e) (fa : Str)
    (pa : printAll fmt as = some fa) :
    ∃ rs out n, Chain atof fmt fs as ls rs ∧ printAll fmt rs = some out ∧ ∀ mf fuel, n ≤ mf → n ≤ fuel →
      ∀ o0, (o0 = some fa ∨ ((∀ l ∈ ls.takeWhile (fun l => !isOp l), isBad l = false) ∧ ls.any isOp = true)) →
        runOps atof fmt mf fuel fs outName (ls.map lineText) fa o0 = .ok (some out) := by
  induction ls generalizing as fa with
  | nil =>
    refine ⟨as, fa, 0, .nil as, pa, ?_⟩
    intro mf fuel _ _ o0 h
    rcases h with rfl | ⟨_, h⟩
    · rfl
    · simp at h
  | cons l ls ih =>
    have hl0 := hl l List.mem_cons_self
    have hl' := fun l' (hm : l' ∈ ls) => hl l' (List.mem_cons_of_mem _ hm)
    cases l with
    | blank k =>
      obtain ⟨rs, out, n, h1, h2, h3⟩ := ih hl' as ha fa pa
      refine ⟨rs, out, n, .skip _ rfl h1, h2, ?_⟩
      intro mf fuel hm hfu o0 ho
      rw [List.map_cons, show lineText (OLine.blank k) = List.replicate k ' ' from rfl, runOps_cons]
      rw [Awk.C41_NF, fields_blank]
      simp only [List.length_nil, ne_eq, not_true_eq_false, if_false, Nat.reduceEqDiff]
      apply h3 mf fuel hm hfu
      rcases ho with ho | ⟨ho1, ho2⟩
      · exact .inl ho
      · refine .inr ⟨?_, ?_⟩
        · intro l' hm'
          apply ho1
          rw [List.takeWhile_cons_of_pos (by rfl)]
          exact List.mem_cons_of_mem _ hm'
        · simpa [isOp] using ho2
    | bad w1 w2 w3 =>
      obtain ⟨rs, out, n, h1, h2, h3⟩ := ih hl' as ha fa pa
      refine ⟨rs, out, n, .skip _ rfl h1, h2, ?_⟩
      intro mf fuel hm hfu o0 ho
      obtain ⟨k1, k2, k3, k4, k5⟩ := hl0
      obtain ⟨t1, t2, t3, t4⟩ := three w1 w2 w3 k1 k2 k3
      rcases ho with ho | ⟨ho1, _⟩
      · rw [List.map_cons, show lineText (OLine.bad w1 w2 w3) = joinWords [w1, w2, w3] from rfl, runOps_cons]
        rw [t1, if_pos rfl, t2, t4]
        cases hat : atoi w3 with
        | none => exact absurd hat k5
        | some r =>
          simp only
          rw [opnOf_none w1 k4]
          simp only
          rw [ho]
          exact h3 mf fuel hm hfu _ (.inl rfl)
      · exfalso
        have := ho1 (.bad w1 w2 w3) (by rw [List.takeWhile_cons_of_pos (by rfl)]; exact List.mem_cons_self)
        cases this
    | op o name tr =>
      obtain ⟨k1, k2, bs, fb, k3, k4, k5⟩ := hl0
      obtain ⟨n1, ms, fm, c1, c2, c3, c4⟩ := loop_eq atof fmt hf o tr as bs ha k5 fa fb pa k3
      obtain ⟨rs, out, n2, h1, h2, h3⟩ := ih hl' ms c2 fm c3
      refine ⟨rs, out, max (max n1 n2) (bs.length + 1), .op o name tr bs ms ⟨by rw [k3, k4], k5⟩ c1 h1, h2, ?_⟩
      intro mf fuel hm hfu o0 _
      obtain ⟨t1, t2, t3, t4⟩ := three (opnName o) name _ (opnName_word o) k1 (flag_word tr)
      rw [List.map_cons, show lineText (OLine.op o name tr) = joinWords [opnName o, name, if tr then ['1'] else ['0']] from rfl, runOps_cons]
      rw [t1, if_pos rfl, t2, t3, t4]
      have hat : ∃ r, atoi (if tr then ['1'] else ['0']) = some r ∧ (r != 0) = tr := by
        cases tr
        · exact ⟨0, by decide +kernel, by decide⟩
        · exact ⟨1, by decide +kernel, by decide⟩
      obtain ⟨r, hr, hb⟩ := hat
      rw [hr]
      simp only
      rw [opnOf_name]
      simp only
      rw [if_neg k2, k4]
      simp only
      rw [hb]
      unfold opFiles
      rw [c4 mf fuel _ _ (by omega) (by omega) rfl rfl]
      simp only
      exact h3 mf fuel (by omega) (by omega) _ (.inl rfl)

theorem ops_lines (fmt : Rat → Str) (fs : Str → Option Str) (outName : Str) (ls : List OLine) (hl : ∀ l ∈ ls, LineOk fmt fs outName l) :
    Awk.readAll ((textOfOps ls).length + 1) (textOfOps ls) = ls.map lineText := by
  have hline : ∀ l ∈ ls.map lineText, ∀ c ∈ l, c ≠ '\n' ∧ c ≠ '\x00' := by
    intro l hm
    obtain ⟨x, hx, rfl⟩ := List.mem_map.1 hm
    have := hl x hx
    cases x with
    | op o name tr =>
      exact line_join (by
        intro w hw
        simp only [List.mem_cons, List.not_mem_nil, or_false] at hw
        rcases hw with rfl | rfl | rfl
        · exact opnName_word o
        · exact this.1
        · exact flag_word tr)
    | blank n =>
      intro c hc
      rw [(List.mem_replicate.1 hc).2]; decide
    | bad w1 w2 w3 =>
      exact line_join (by
        intro w hw
        simp only [List.mem_cons, List.not_mem_nil, or_false] at hw
        rcases hw with rfl | rfl | rfl
        · exact this.1
        · exact this.2.1
        · exact this.2.2.1)
  have e : textOfOps ls = (ls.map lineText).flatMap (fun l => l ++ ['\n']) := by
    unfold textOfOps
    rw [List.flatMap_map]
  have hlen : (ls.map lineText).length < (textOfOps ls).length + 1 := by
    rw [e]
    generalize ls.map lineText = q
    induction q with
    | nil => simp
    | cons a q ih => simp only [List.flatMap_cons, List.length_append, List.length_cons, List.length_nil] at ih ⊢; omega
  have := Awk.C42_lines_partial (ls.map lineText) hline ((textOfOps ls).length + 1) hlen
  rw [← e] at this
  exact this

/-- **C165 (partial).** A file of operations with at least one operation, and in which no line with an unknown operation comes before
the first one, makes the tool end with success; the output file is then the one written from the entries that result from
doing the operations in order on the entries of the first file, each one on the result of the previous one. Blank lines and
unknown operations are ignored. What the output file contained before does not matter. Missing with respect to `C165_full`: unknown
operations before the first operation. -/
theorem C165_operations_file_partial (atof : Str → Rat) (fmt : Rat → Str) (hf : ∀ x, Word (fmt x)) (fs : Str → Option Str)
    (outName : Str) (ls : List OLine) (hl : ∀ l ∈ ls, LineOk fmt fs outName l) (hop : ls.any isOp = true)
    (hbad : ∀ l ∈ ls.takeWhile (fun l => !isOp l), isBad l = false) (as : List Entry) (ha : ∀ e ∈ as, EntryOk e) :
    ∃ fa rs out n, printAll fmt as = some fa ∧ Chain atof fmt fs as ls rs ∧ printAll fmt rs = some out ∧
      ∀ mf fuel old, n ≤ mf → n ≤ fuel →
        parseAlignOpsFile atof fmt mf fuel fs outName (textOfOps ls) fa old = .ok (some out) := by
  obtain ⟨fa, pa⟩ := print_all_some fmt as ha
  obtain ⟨rs, out, n, h1, h2, h3⟩ := run_started atof fmt hf fs outName ls hl as ha fa pa
  refine ⟨fa, rs, out, n, pa, h1, h2, ?_⟩
  intro mf fuel old hm hfu
  unfold parseAlignOpsFile
  rw [ops_lines fmt fs outName ls hl]
  exact h3 mf fuel hm hfu old (.inr ⟨hbad, hop⟩)

/-! ### The full statement -/

/-- Unknown operations are ignored wherever they are. -/
def C165_full : Prop :=
  ∀ (atof : Str → Rat) (fmt : Rat → Str), (∀ x, Word (fmt x)) → ∀ (fs : Str → Option Str) (outName : Str) (ls : List OLine),
    (∀ l ∈ ls, LineOk fmt fs outName l) → ls.any isOp = true → ∀ as : List Entry, (∀ e ∈ as, EntryOk e) →
    ∀ fa, printAll fmt as = some fa → ∃ rs out n, Chain atof fmt fs as ls rs ∧ printAll fmt rs = some out ∧
      ∀ mf fuel old, n ≤ mf → n ≤ fuel →
        parseAlignOpsFile atof fmt mf fuel fs outName (textOfOps ls) fa old = .ok (some out)

theorem exOk : ∀ e ∈ exA ++ exB, EntryOk e := by
  intro e he
  simp only [exA, exB, List.cons_append, List.nil_append, List.mem_cons, List.not_mem_nil, or_false] at he
  rcases he with rfl | rfl | rfl | rfl | rfl <;> exact ⟨by decide, by decide, by decide, rfl, rfl, by decide⟩

def exFs : Str → Option Str := fun n => if n = ['f'] then printAll exFmt exB else none

theorem exFmt_word (x : Rat) : Word (exFmt x) := by unfold exFmt; split <;> exact ⟨by decide, by decide⟩

def exLines : List OLine := [.bad "-xor".toList ['f'] ['1'], .op .and ['f'] true]

theorem exLines_ok : ∀ l ∈ exLines, LineOk exFmt exFs ['o'] l := by
  intro l hl
  simp only [exLines, List.mem_cons, List.not_mem_nil, or_false] at hl
  rcases hl with rfl | rfl
  · exact ⟨⟨by decide, by decide⟩, ⟨by decide, by decide⟩, ⟨by decide, by decide⟩, (by intro o; cases o <;> decide), (by decide +kernel)⟩
  · obtain ⟨f, hf⟩ := print_all_some exFmt exB (fun e he => exOk e (List.mem_append_right _ he))
    exact ⟨⟨by decide, by decide⟩, (by decide), exB, f, hf, (by unfold exFs; rw [if_pos rfl, hf]),
      fun e he => exOk e (List.mem_append_right _ he)⟩

/-- With an unknown operation first, the tool fails when the output file does not exist (and otherwise it operates on its old
contents). -/
theorem C165_counterexample : ¬ C165_full := by
  intro h
  obtain ⟨fa, pa⟩ := print_all_some exFmt exA (fun e he => exOk e (List.mem_append_left _ he))
  obtain ⟨rs, out, n, _, _, h3⟩ := h exAtof exFmt exFmt_word exFs ['o'] exLines exLines_ok rfl exA
    (fun e he => exOk e (List.mem_append_left _ he)) fa pa
  have h4 := h3 n n none (Nat.le_refl _) (Nat.le_refl _)
  unfold parseAlignOpsFile at h4
  rw [ops_lines exFmt exFs ['o'] exLines exLines_ok] at h4
  rw [show exLines.map lineText = [joinWords ["-xor".toList, ['f'], ['1']], lineText (OLine.op .and ['f'] true)] from rfl, runOps_cons] at h4
  obtain ⟨t1, t2, t3, t4⟩ := three "-xor".toList ['f'] ['1'] ⟨by decide, by decide⟩ ⟨by decide, by decide⟩ ⟨by decide, by decide⟩
  rw [t1, if_pos rfl, t2, t4] at h4
  have e1 : atoi ['1'] = some 1 := by decide +kernel
  have e2 : opnOf "-xor".toList = none := by decide
  rw [e1] at h4
  simp only at h4
  rw [e2] at h4
  simp only at h4
  cases h4

/-- The stale contents of the output file are used. -/
example : parseAlignOpsFile exAtof exFmt 0 9 exFs ['o'] (textOfOps exLines) [] (some "# 2\na\nNULL ({ }) q ({ 1 }) \n".toList) =
    .ok (some "# 2\na\nNULL ({ }) q ({ 1 }) \n".toList) := by decide +kernel

/-- The hypotheses of `C165_operations_file_partial` hold of a concrete file. -/
example : (∀ l ∈ [OLine.blank 2] ++ exLines.drop 1 ++ exLines.take 1, LineOk exFmt exFs ['o'] l) ∧
    ([OLine.blank 2] ++ exLines.drop 1 ++ exLines.take 1).any isOp = true ∧
    ∀ l ∈ ([OLine.blank 2] ++ exLines.drop 1 ++ exLines.take 1).takeWhile (fun l => !isOp l), isBad l = false := by
  refine ⟨?_, rfl, ?_⟩
  · intro l hl
    simp only [exLines, List.drop_one, List.tail_cons, List.take_succ_cons, List.take_zero, List.cons_append, List.nil_append, List.mem_cons,
      List.not_mem_nil, or_false] at hl
    rcases hl with rfl | rfl | rfl
    · trivial
    · exact exLines_ok _ (by simp [exLines])
    · exact exLines_ok _ (by simp [exLines])
  · intro l hl
    have e : ([OLine.blank 2] ++ exLines.drop 1 ++ exLines.take 1).takeWhile (fun l => !isOp l) = [.blank 2] := rfl
    rw [e, List.mem_singleton] at hl
    rw [hl]; rfl

end Thot.AligFile
