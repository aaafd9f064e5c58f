import Verif.AligFile.Giza
import Verif.LexMerge.Merge
import Verif.PhrTools.MergeProps
/-!
Model of tools for text files: `/repo/utils/phrase_models/thot_filter_ttable_given_corpus.sh`, `thot_conv_giza_alig_file.py`,
`thot_gen_exhaustive_giza_alig.py`, `/repo/utils/sw_models/thot_filter_text_ilextable.sh`, `thot_merge_text_ilextable.sh`,
`thot_merge_text_iibm2atable.sh`, `thot_merge_text_ihmmatable.sh`, `/repo/utils/nlp_common/thot_replace_oov_with_unk.sh`.

A file is the list of its lines. Words are separated by blanks (`awk` and `split()` also split at tabs; there are none).
-/
namespace Thot.TextTools

open Thot
open Thot.SentHandler (joinWords)
open Thot.Awk (fields)
open Thot.Vocab (showNat)

abbrev W := List Char

/-- `|||`. -/
def bars : W := ['|', '|', '|']

/-! ### thot_filter_ttable_given_corpus -/

/-- The loops over `i`, `j` and `k`: the phrases that start at the first word, with the words before them (thot_filter_ttable_given_corpus.sh:42-50). -/
def phrFrom : List W → List W → List W
  | _, [] => []
  | pre, w :: ws => joinWords (pre ++ [w]) :: phrFrom (pre ++ [w]) ws

/-- The keys of `testCorpus` of a line (thot_filter_ttable_given_corpus.sh:40-61). -/
def phrases : List W → List W
  | [] => []
  | w :: ws => phrFrom [] (w :: ws) ++ phrases ws

/-- The loop that finds the first `|||` (thot_filter_ttable_given_corpus.sh:65-72); it does not look at the last word. -/
def skipBars : List W → List W
  | [] => []
  | [w] => [w]
  | w :: v :: ws => if w = bars then v :: ws else skipBars (v :: ws)

/-- The loop that collects the phrase (thot_filter_ttable_given_corpus.sh:73-85); it does not look at the last word. -/
def collect : List W → W
  | [] => []
  | [_] => []
  | w :: v :: ws => if w = bars then [] else (if v = bars then w else w ++ [' ']) ++ collect (v :: ws)

/-- `thot_filter_ttable_given_corpus` (thot_filter_ttable_given_corpus.sh:33-95): the standard output. -/
def filterTtable (corpus table : List W) : List W :=
  table.filter fun ln => decide (collect (skipBars (fields ' ' ln)) ∈ corpus.flatMap fun c => phrases (fields ' ' c))

/-! ### thot_filter_text_ilextable -/

/-- Reading a vocabulary (thot_filter_text_ilextable.sh:21-29): word of an index, the last one given. -/
def vocOf (voc : List W) (idx : W) : W :=
  (voc.foldl (fun m ln => AMap.put m ((fields ' ' ln).getD 0 []) ((fields ' ' ln).getD 1 [])) ([] : List (W × W)) |> fun m => AMap.lk m idx).getD []

/-- The pairs of a sentence pair (thot_filter_text_ilextable.sh:48-55). -/
def pairsOf (s t : List W) : List W := ("NULL".toList :: s).flatMap fun w => t.map fun v => w ++ ' ' :: v

/-- The pairs of the corpora (thot_filter_text_ilextable.sh:31-56). If the target corpus has less lines, `getline` fails and `$0` is still the
source line. -/
def corpusPairs : List W → List W → List W
  | [], _ => []
  | s :: ss, [] => pairsOf (fields ' ' s) (fields ' ' s) ++ corpusPairs ss []
  | s :: ss, t :: ts => pairsOf (fields ' ' s) (fields ' ' t) ++ corpusPairs ss ts

/-- `thot_filter_text_ilextable` (thot_filter_text_ilextable.sh:18-61). -/
def filterLex (svoc tvoc sc tc table : List W) : List W :=
  table.filter fun ln => decide (vocOf svoc ((fields ' ' ln).getD 0 []) ++ ' ' :: vocOf tvoc ((fields ' ' ln).getD 1 []) ∈ corpusPairs sc tc)

/-! ### Merging tables of counts -/

section
variable {S T : Type} [DecidableEq S] [DecidableEq T]

open Thot.LexMerge (Rec Ent)

/-- An output of `awk`: a record, or the line printed with variables that have no value. -/
inductive Out (S T : Type) where
  | record (r : Rec S T)
  | blank
  deriving DecidableEq

/-- One iteration of the loop of `print_counts` (thot_merge_text_ilextable.sh:31-45): target, its count, and the output. -/
def pcIter (s : S) (lc : Rat) (st : T × Rat × List (Out S T)) (x : T × Rat) : T × Rat × List (Out S T) :=
  if st.1 = x.1 then (st.1, st.2.1 + x.2, st.2.2)
  else (x.1, x.2, st.2.2 ++ [.record ⟨s, st.1, st.2.1, lc⟩])

/-- `print_counts` (thot_merge_text_ilextable.sh:25-48). Without entries the last line is printed all the same. -/
def printCounts (s : Option S) (grp : List (T × Rat)) (lc : Rat) : List (Out S T) :=
  match s, grp with
  | some s, x :: rest =>
    let st := rest.foldl (pcIter s lc) (x.1, x.2, [])
    st.2.2 ++ [.record ⟨s, st.1, st.2.1, lc⟩]
  | _, _ => [.blank]

/-- `first_src` (no value before the first entry), `lc_src`, the arrays of target words and counts, `chunks` and the output. -/
structure MSt (S T : Type) where
  src : Option S
  lc : Rat
  grp : List (T × Rat)
  chunks : List Nat
  out : List (Out S T)

/-- The groups of entries of a source (thot_merge_text_ilextable.sh:62-97). -/
def mGroup (st : MSt S T) (e : Ent S T) : MSt S T :=
  match st.src with
  | none => { st with src := some e.r.s, grp := [(e.r.t, e.r.num)] }
  | some s =>
    if s ≠ e.r.s then
      { src := some e.r.s, lc := 0, grp := [(e.r.t, e.r.num)], chunks := [], out := st.out ++ printCounts st.src st.grp st.lc }
    else { st with grp := st.grp ++ [(e.r.t, e.r.num)] }

/-- An entry (thot_merge_text_ilextable.sh:53-103). Counts are rationals, not logarithms: `lns_sumlog` is addition, -99999 is zero. -/
def mStep (st : MSt S T) (e : Ent S T) : MSt S T :=
  let st1 := mGroup st e
  if e.id ∈ st1.chunks then st1 else { st1 with chunks := e.id :: st1.chunks, lc := st1.lc + e.r.den }

/-- `merge_sorted_counts` (thot_merge_text_ilextable.sh:7-109) of sorted entries. -/
def mergeText (es : List (Ent S T)) : List (Out S T) :=
  let st := es.foldl mStep ⟨none, 0, [], [], []⟩
  st.out ++ printCounts st.src st.grp st.lc

end

/-! ### thot_conv_giza_alig_file -/

/-- `({` and `})`. -/
def opBr : W := ['(', '{']
def clBr : W := ['}', ')']

/-- `int` of a word (thot_conv_giza_alig_file.py:37); `none` is a `ValueError`. Simplified: of the numerals that Python accepts, those with only
digits. -/
def pyInt (w : W) : Option Int := if w ≠ [] ∧ w.all Vocab.isDig then some (Vocab.atoiDigits 0 w : Nat) else none

/-- The inner loop of `extract_src_info` (thot_conv_giza_alig_file.py:35-41): the numbers up to `})` and what follows; `none` is an
`IndexError` or a `ValueError`. -/
def numLoop : List W → Option (List Int × List W)
  | [] => none
  | w :: ws =>
    if w = clBr then some ([], ws)
    else match pyInt w, numLoop ws with
      | some n, some r => some (n :: r.1, r.2)
      | _, _ => none

theorem numLoop_len : ∀ (ws : List W) (r : List Int × List W), numLoop ws = some r → r.2.length < ws.length := by
  intro ws
  induction ws with
  | nil => intro r h; cases h
  | cons w ws ih =>
    intro r h
    unfold numLoop at h
    split at h
    · cases h; simp
    · split at h
      · rename_i n r' _ h2
        cases h
        have := ih r' h2
        simp only [List.length_cons]; omega
      · cases h

/-- `extract_src_info` (thot_conv_giza_alig_file.py:25-48): `aligs`, for the word in position `k`. -/
def extract : Nat → List W → Option (List (Nat × Int))
  | _, [] => some []
  | k, _ :: ws =>
    match h : numLoop (ws.drop 1) with
    | none => none
    | some r => (extract (k + 1) r.2).map fun l => r.1.map (fun n => (k, n)) ++ l
termination_by _ ws => ws.length
decreasing_by
  have := numLoop_len _ _ h
  simp only [List.length_drop] at this
  simp only [List.length_cons]; omega

/-- A number in decimal. -/
def showInt (n : Int) : W := if n < 0 then '-' :: showNat n.natAbs else showNat n.natAbs

/-- An entry (thot_conv_giza_alig_file.py:139-147). -/
def mosesLine (al : List (Nat × Int)) : W :=
  al.flatMap fun p => if p.1 > 0 then showNat (p.1 - 1) ++ '-' :: showInt (p.2 - 1) ++ [' '] else []

/-- `conv_giza_file_to_moses` (thot_conv_giza_alig_file.py:115-147). -/
def toMoses : List W → Option (List W)
  | _ :: _ :: l3 :: ls =>
    if l3 = [] then some []
    else match extract 0 (fields ' ' l3), toMoses ls with
      | some al, some r => some (mosesLine al :: r)
      | _, _ => none
  | _ => some []

/-! ### thot_gen_exhaustive_giza_alig -/

/-- The positions (thot_gen_exhaustive_giza_alig.py:64-65). -/
def positions (n : Nat) : W := joinWords ((List.range n).map fun i => showNat (i + 1))

/-- An entry (thot_gen_exhaustive_giza_alig.py:55-69). -/
def exhEntry (s t : W) : List W :=
  ["# 1".toList, t, "NULL ({ }) ".toList ++ (fields ' ' s).flatMap fun w => w ++ " ({ ".toList ++ positions (fields ' ' t).length ++ " }) ".toList]

/-- `main` (thot_gen_exhaustive_giza_alig.py:54-69); `zip` ends with the shorter file. -/
def exhaustive : List W → List W → List W
  | s :: ss, t :: ts => exhEntry s t ++ exhaustive ss ts
  | _, _ => []

/-! ### thot_replace_oov_with_unk -/

/-- `<unk>`. -/
def unk : W := ['<', 'u', 'n', 'k', '>']

/-- A line (thot_replace_oov_with_unk.sh:16-23): assigning a field rebuilds the line. -/
def oovLine (voc : List W) (ln : W) : W :=
  if (fields ' ' ln).all fun w => decide (w ∈ voc) then ln
  else joinWords ((fields ' ' ln).map fun w => if w ∈ voc then w else unk)

/-- `replace_oov_with_unk` (thot_replace_oov_with_unk.sh:6-25). -/
def replaceOov (vocfile input : List W) : List W :=
  input.map (oovLine (vocfile.map fun ln => (fields ' ' ln).getD 0 []))

end Thot.TextTools
