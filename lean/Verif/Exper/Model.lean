import Verif.PhrTools.Runs
import Verif.NbTools.Segm
import Verif.Vocab.Model
import Verif.Common.AMap
/-!
Model of scripts for experiments: `/repo/utils/nlp_common/thot_shuffle.sh`, `/repo/utils/exper/thot_gen_partition.sh`,
`/repo/utils/stack_dec/thot_conf_interv_smt.sh`, `/repo/utils/stack_dec/thot_conf_interv_cat.sh`, `/repo/utils/nlp_common/thot_corpus_length.sh`,
`/repo/utils/sw_models/thot_get_swm_vocab.sh`, `/repo/utils/phrase_models/thot_merge_seglen_counts.sh`,
`/repo/utils/sw_models/thot_gen_wigauss_slen_model.sh`, `/repo/utils/incr_models/thot_repetition_rate.sh`.

A file is the list of its lines. Words are separated by blanks (`awk` also splits at tabs; there are none). Arithmetic is exact. The random numbers
are a parameter: the sequence is fixed by the seed.
-/
namespace Thot.Exper

open Thot
open Thot.SentHandler (joinWords)
open Thot.Awk (fields)
open Thot.Vocab (showNat)

abbrev W := List Char

/-! ### thot_shuffle -/

/-- A line with a random number (in millionths, as `%f` shows it) and its number (thot_shuffle.sh:14). -/
structure Deco where
  r : Nat
  nr : Nat
  txt : W

/-- The text of the line: `printf"%f %d %s\n",rand(),NR,$0` (thot_shuffle.sh:14). The random number is shown in millionths; its text is never
printed. -/
def Deco.text (d : Deco) : W := showNat d.r ++ ' ' :: (showNat d.nr ++ ' ' :: d.txt)

/-- The decorated lines: the `i`-th call of `rand()` gives `r i` (thot_shuffle.sh:14). -/
def deco (r : Nat → Nat) : Nat → List W → List Deco
  | _, [] => []
  | i, l :: ls => ⟨r i, i + 1, l⟩ :: deco r (i + 1) ls

/-- `sort -k1n -k2n` (thot_shuffle.sh:15). -/
def Deco.le (a b : Deco) : Bool := decide (a.r < b.r) || (decide (a.r = b.r) && decide (a.nr ≤ b.nr))

/-- `for(i=3;i<NF;++i) printf"%s ",$i` from the third field (thot_shuffle.sh:15). -/
def allButLast : List W → W
  | [] => []
  | [_] => []
  | w :: v :: ws => w ++ ' ' :: allButLast (v :: ws)

/-- `{for(i=3;i<NF;++i) printf"%s ",$i; printf"%s\n",$NF}` on the fields of a line (thot_shuffle.sh:15). -/
def undeco (fs : List W) : W := allButLast (fs.drop 2) ++ fs.getLast?.getD []

/-- `shuffle` (thot_shuffle.sh:6-16). -/
def shuffle (r : Nat → Nat) (lines : List W) : List W :=
  ((deco r 0 lines).mergeSort Deco.le).map fun d => undeco (fields ' ' d.text)

/-- The loop of `thot_shuffle_alt` (thot_shuffle.sh:48-58): `j` entries of `vec_lines` are in use, `u` gives `int(random(j+1))` for the `i`-th call;
`v` holds the values of the entries. An entry is read as 0 if it was never set. -/
def altLoop (u : Nat → Nat → Nat) (line : Nat → W) : Nat → Nat → (Nat → Nat) → List W
  | 0, _, _ => []
  | j + 1, i, v => line (v (u i (j + 1))) :: altLoop u line j (i + 1) fun k => if k = u i (j + 1) then v j else v k

/-- `thot_shuffle_alt` (thot_shuffle.sh:18-61). `u i b` is the `i`-th value of `int(rand()*b)`. -/
def shuffleAlt (u : Nat → Nat → Nat) (lines : List W) : List W := altLoop u (fun k => lines.getD k []) lines.length 0 id

/-! ### thot_gen_partition -/

/-- `head -n` (thot_gen_partition.sh:144-156). -/
def head (n : Nat) (l : List W) : List W := l.take n

/-- `tail -n` (thot_gen_partition.sh:146-156). -/
def tail (n : Nat) (l : List W) : List W := l.drop (l.length - n)

/-- The files written for one language (thot_gen_partition.sh:139-156). -/
structure Part where
  train : List W
  excluded : List W
  dev : List W
  test : List W

/-- Steps for one language (thot_gen_partition.sh:139-156); `nl` is the number of lines of the source file. -/
def partOf (r : Nat → Nat) (nl e dt : Nat) (f : List W) : Part :=
  let sh := shuffle r f
  let ex := tail e sh
  ⟨head (nl - e) sh, ex, head dt ex, tail dt (head (2 * dt) ex)⟩

/-- `thot_gen_partition` with the four options (thot_gen_partition.sh:105-156): `e_given` is 1 after the check of line 105; `none`: an error message.
`r` gives the random numbers of `thot_shuffle 31415`. -/
def genPartition (r : Nat → Nat) (src trg : List W) (e dt : Nat) : Option (Part × Part) :=
  if 2 * dt < 1 then none
  else if src.length ≠ trg.length then none
  else if src.length < e then none
  else some (partOf r src.length e dt src, partOf r src.length e dt trg)

/-! ### thot_conf_interv_smt and thot_conf_interv_cat -/

/-- The sample of a bootstrap experiment (thot_conf_interv_smt.sh:23-40): `u i` is the value of `int(NR*rand())` in the `i`-th round. A missing line is
empty. -/
def sample (u : Nat → Nat) (ref test : List W) (S : Nat) : List (W × W) :=
  (List.range S).map fun i => (ref.getD (u i) [], test.getD (u i) [])

/-- The loop of `bootstrap_eval` (thot_conf_interv_smt.sh:53-58): `m n` is the result of the `n`-th call of `bootstrap_exper`. -/
def bootLoop (m : Nat → Rat) (N : Nat) : Nat → Nat → List Rat
  | 0, _ => []
  | f + 1, n => if n < N then m n :: bootLoop m N f (n + 1) else []

/-- The file `scef` (thot_conf_interv_smt.sh:53-58). -/
def scef (m : Nat → Rat) (N : Nat) : List Rat := bootLoop m N N 1

/-- `LC_ALL=C sort -n` of the results (thot_conf_interv_smt.sh:68). -/
def sortedRes (m : Nat → Rat) (N : Nat) : List Rat := (scef m N).mergeSort fun a b => decide (a ≤ b)

/-- `head -n | tail -1` (thot_conf_interv_smt.sh:74-79): nothing if there is no line. -/
def headTail (n : Nat) (l : List Rat) : Option Rat := (l.take n).getLast?

/-- `printf"%d",0.025*N+1` with `p = 25`, `0.05*N+1` with `p = 50` (thot_conf_interv_smt.sh:69-70). -/
def lowIdx (p N : Nat) : Nat := p * N / 1000 + 1

/-- `printf"%d",N-l95+1` (thot_conf_interv_smt.sh:71-72). -/
def highIdx (p N : Nat) : Nat := N - lowIdx p N + 1

/-- A confidence interval: bounds, center and radius (thot_conf_interv_smt.sh:74-81). -/
structure Interval where
  lb : Rat
  ub : Rat
  center : Rat
  rad : Rat

/-- The interval (thot_conf_interv_smt.sh:69-81): `none` if there are no results. -/
def interval (p : Nat) (m : Nat → Rat) (N : Nat) : Option Interval :=
  match headTail (lowIdx p N) (sortedRes m N), headTail (highIdx p N) (sortedRes m N) with
  | some l, some u => some ⟨l, u, l + (u - l) / 2, (u - l) / 2⟩
  | _, _ => none

/-- `{sum+=$0;}END{printf "%f", sum/NR;}` (thot_conf_interv_smt.sh:61): `none`: division by zero. -/
def meanOf (l : List Rat) : Option Rat := if l.length = 0 then none else some (l.foldl (· + ·) 0 / l.length)

/-- The square of the standard deviation (thot_conf_interv_smt.sh:63): `none`: division by zero. -/
def varOf (l : List Rat) (med : Rat) : Option Rat :=
  if l.length = 1 then none else some (l.foldl (fun s x => s + (x - med) * (x - med)) 0 / ((l.length : Rat) - 1))

/-- The sums of a bootstrap experiment of `thot_conf_interv_cat` (thot_conf_interv_cat.sh:43-58): fields 6, 10 and 17 of the sampled `PARTIAL` lines;
KSR and KSMR. `none`: division by zero. -/
def catMeasures (u : Nat → Nat) (lines : List (Nat × Nat × Nat)) (S : Nat) : Option (Rat × Rat) :=
  let s := (List.range S).foldl (fun (a : Nat × Nat × Nat) i =>
    let f := lines.getD (u i) (0, 0, 0)
    (a.1 + f.1, a.2.1 + f.2.1, a.2.2 + f.2.2)) (0, 0, 0)
  if s.1 = 0 then none else some ((s.2.1 : Rat) / s.1 * 100, (s.2.2 : Rat) / s.1 * 100)

/-! ### thot_corpus_length -/

/-- `NF`. -/
def nf (l : W) : Nat := (fields ' ' l).length

/-- The loop of `BEGIN` (thot_corpus_length.sh:11-15). -/
def lmax (ls : List W) : Nat := ls.foldl (fun m l => if m < nf l then nf l else m) 0

/-- Counts of lengths, lines and words (thot_corpus_length.sh:16-26): `frec[i]` is 0 for the lengths that were not set. -/
def lenCounts (ls : List W) : (Nat → Nat) × Nat × Nat :=
  ls.foldl (fun a l => (fun k => if k = nf l then a.1 (nf l) + 1 else a.1 k, a.2.1 + 1, a.2.2 + nf l)) (fun _ => 0, 0, 0)

/-- A line of the histogram: length, lines, percentage, lines up to this length, percentage (thot_corpus_length.sh:32). -/
structure LenRow where
  l : Nat
  freq : Nat
  pct : Rat
  cum : Nat
  cumPct : Rat

/-- The loop of `END` from length `i` with the accumulated count `acum` (thot_corpus_length.sh:29-33). -/
def lenRows (frec : Nat → Nat) (total : Nat) : Nat → Nat → Nat → List LenRow
  | 0, _, _ => []
  | n + 1, i, acum =>
    ⟨i, frec i, (frec i : Rat) / total * 100, acum + frec i, ((acum + frec i : Nat) : Rat) / total * 100⟩ :: lenRows frec total n (i + 1) (acum + frec i)

/-- `corpus_length` (thot_corpus_length.sh:6-37): the histogram, the number of lines and the mean length; `none`: division by zero. The texts are
shown with one or six decimals. -/
def corpusLength (ls : List W) : Option (List LenRow × Nat × Rat) :=
  let c := lenCounts ls
  if c.2.1 = 0 then none else some (lenRows c.1 c.2.1 (lmax ls + 1) 0 0, c.2.1, (c.2.2 : Rat) / c.2.1)

/-! ### thot_get_swm_vocab -/

/-- The arrays `vocab` and `freq` and the next index (thot_get_swm_vocab.sh:86-114). -/
structure VocSt where
  vocab : List (W × Nat)
  freq : List (W × Nat)
  id : Nat

/-- A special symbol (thot_get_swm_vocab.sh:92-97). -/
def addSp (st : VocSt) (w : W) : VocSt := ⟨AMap.put st.vocab w st.id, st.freq, st.id + 1⟩

/-- A word of the corpus (thot_get_swm_vocab.sh:103-112). -/
def addTok (st : VocSt) (w : W) : VocSt :=
  if AMap.lk st.vocab w = none then ⟨AMap.put st.vocab w st.id, AMap.put st.freq w 1, st.id + 1⟩
  else ⟨st.vocab, AMap.put st.freq w ((AMap.lk st.freq w).getD 0 + 1), st.id⟩

/-- `thot_get_swm_vocab` (thot_get_swm_vocab.sh:86-118): index, word and frequency of each line, in the order of insertion (`awk` prints them in an
unspecified order). -/
def swmVocab (sps : W) (ls : List W) : List (Nat × W × Nat) :=
  let st := (ls.flatMap (fields ' ')).foldl addTok ((fields ' ' sps).foldl addSp ⟨[], [], 0⟩)
  st.vocab.map fun e => (e.2, e.1, (AMap.lk st.freq e.1).getD 0)

/-! ### thot_merge_seglen_counts -/

/-- An entry (thot_merge_seglen_counts.sh:129-138). -/
def addSeg (m : List ((Nat × Nat) × Nat)) (e : (Nat × Nat) × Nat) : List ((Nat × Nat) × Nat) :=
  match AMap.lk m e.1 with
  | none => AMap.put m e.1 e.2
  | some c => AMap.put m e.1 (c + e.2)

/-- `thot_merge_seglen_counts` (thot_merge_seglen_counts.sh:129-145) on the three numbers of each line; the output is in an unspecified order. -/
def mergeSeglen (es : List ((Nat × Nat) × Nat)) : List ((Nat × Nat) × Nat) := es.foldl addSeg []

/-! ### thot_gen_wigauss_slen_model -/

/-- The lengths of each target line and of the source line read with it (thot_gen_wigauss_slen_model.sh:165-171): if there is no source line, `getline`
does not change `NF`. Source length first. -/
def slenPairs : List W → List W → List (Nat × Nat)
  | [], _ => []
  | t :: ts, [] => (nf t, nf t) :: slenPairs ts []
  | t :: ts, s :: ss => (nf s, nf t) :: slenPairs ts ss

/-- The entries of the arrays `k`, `sw`, `m` and `s` for a source length (thot_gen_wigauss_slen_model.sh:173-187). -/
structure SlenEnt where
  k : Nat
  sw : Rat
  m : Rat
  s : Rat

/-- A sentence pair: the new entry (thot_gen_wigauss_slen_model.sh:172-187). -/
def slenUpd (e : Option SlenEnt) (tlen : Nat) : SlenEnt :=
  match e with
  | none => ⟨1, 1, tlen, 0⟩
  | some e => ⟨e.k + 1, 1 + e.sw, e.m + (((tlen : Rat) - e.m) * 1) / (1 + e.sw),
      e.s + (e.sw * 1 * (((tlen : Rat) - e.m) * ((tlen : Rat) - e.m))) / (1 + e.sw)⟩

/-- `thot_gen_wigauss_slen_model` (thot_gen_wigauss_slen_model.sh:160-200): number of sentences, sums of the source and target lengths, entries (in an
unspecified order). -/
def slenModel (trg src : List W) : Nat × Nat × Nat × List (Nat × SlenEnt) :=
  (slenPairs trg src).foldl (fun a p => (a.1 + 1, a.2.1 + p.1, a.2.2.1 + p.2, AMap.put a.2.2.2 p.1 (slenUpd (AMap.lk a.2.2.2 p.1) p.2))) (0, 0, 0, [])

/-! ### thot_repetition_rate -/

/-- The value of a field with a number. -/
def val (w : W) : Nat := Vocab.atoiDigits 0 w

/-- `$NF`. -/
def lastFld (l : W) : W := (fields ' ' l).getLast?.getD []

/-- Total number of `n`-grams: `NF` is `n+2` (thot_repetition_rate.sh:12-15). -/
def totalN (n : Nat) (file : List W) : Nat := file.foldl (fun s l => if nf l = n + 2 then s + val (lastFld l) else s) 0

/-- Number of distinct `n`-grams (thot_repetition_rate.sh:18-21). -/
def distN (n : Nat) (file : List W) : Nat := file.foldl (fun s l => if nf l = n + 2 then s + 1 else s) 0

/-- Number of singletons (thot_repetition_rate.sh:24-27). -/
def singN (n : Nat) (file : List W) : Nat := file.foldl (fun s l => if nf l = n + 2 ∧ val (lastFld l) = 1 then s + 1 else s) 0

/-- The rate (thot_repetition_rate.sh:30-33); it is shown with six decimals. -/
def rateN (n : Nat) (file : List W) : Rat :=
  if distN n file = 0 then 0 else ((distN n file : Rat) - singN n file) / distN n file

/-- A line of a count file with its label: label, `$(NF-1)`, `$NF`, other fields (thot_repetition_rate.sh:54). -/
structure NgLine where
  label : W
  hist : W
  count : W
  ngram : List W
deriving DecidableEq

/-- `transform_count_file` (thot_repetition_rate.sh:47-55). -/
def transform (label : W) (file : List W) : List NgLine :=
  file.map fun l =>
    let fs := fields ' ' l
    ⟨label, fs.getD (fs.length - 2) [], fs.getLast?.getD [], fs.take (fs.length - 2)⟩

/-- The text from the fourth field: the key of `sort -k 4`, compared by `uniq -f 3` (thot_repetition_rate.sh:63). -/
def NgLine.key (e : NgLine) : W := joinWords e.ngram

/-- A result of `LC_ALL=C sort -k 4` (thot_repetition_rate.sh:63). -/
def IsSortNg (out inp : List NgLine) : Prop := out.Perm inp ∧ out.Pairwise fun x y => PhrTools.leText x.key y.key = true

/-- `uniq -f 3 -u`: the lines that are not repeated (thot_repetition_rate.sh:63). -/
def uniqU (l : List NgLine) : List NgLine :=
  (PhrTools.runs NgLine.key l).filterMap fun g => match g.2 with
    | [a] => some a
    | _ => none

/-- `corpus` and `train` (thot_repetition_rate.sh:219-220). -/
def labCorpus : W := ['c', 'o', 'r', 'p', 'u', 's']
def labTrain : W := ['t', 'r', 'a', 'i', 'n']

/-- `grep "^corpus"` and the last `awk` (thot_repetition_rate.sh:63): the fields of each printed line. -/
def unseen (sorted : List NgLine) : List (List W) :=
  ((uniqU sorted).filter fun e => labCorpus.isPrefixOf e.label).map fun e => e.ngram ++ [e.hist, e.count]

/-- Unseen fraction from the totals (thot_repetition_rate.sh:74-80); `none`: division by zero. -/
def unfN (n : Nat) (corpus diff : List W) : Option Rat :=
  if totalN n corpus = 0 then none else some ((totalN n diff : Rat) / totalN n corpus)

/-- The four fractions of the line with the result (thot_repetition_rate.sh:248). -/
def unfPrinted (corpus diff : List W) : List (Option Rat) := [unfN 1 corpus diff, unfN 2 corpus diff, unfN 3 corpus diff, unfN 3 corpus diff]

end Thot.Exper
