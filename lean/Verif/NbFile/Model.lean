import Verif.Opts.Model
/-!
Model of the files with n-best lists: written by `thot_wg_proc -n` (src/error_correction/thot_wg_proc.cc,
`printNbList`) and read by `thot_ll_weight_upd_nblist` (src/stack_dec/thot_ll_weight_upd_nblist.cc), with the
selection of components of the latter.

Simplifications: a line is the list of its fields, that is, of the texts between blanks; the texts of scores, weights
and words are not empty and have no blanks; `dollar(0)` is the fields separated by single blanks.  The conversion of a
text to a number is left out: score components are the texts.
-/
namespace Thot.NbFile

abbrev Line := List String

/-- `|||`. -/
def bars : String := "|||"

/-- The fields of the header. thot_wg_proc.cc:240-249. -/
def header : List (String × String) → Line
  | [] => ["#"]
  | ps => "#" :: ((ps.map fun p => [p.1, p.2]).intersperse [","]).flatten

/-- An arc of a hypothesis. thot_wg_proc.cc:268. -/
def arcText (a : Nat × Nat) : String := toString a.1 ++ "->" ++ toString a.2

/-- An entry; `none`: the vector of score components, or of arcs, has no such element. thot_wg_proc.cc:254-274. -/
def entryLine (score : String) (words : List String) (comps : Option (List String))
    (arcs : Option (List (Nat × Nat))) : Line :=
  score :: bars ::
    ((match comps with
      | some cs => cs ++ [bars]
      | none => []) ++
    (match arcs with
      | some as => as.map arcText ++ [bars]
      | none => []) ++ words)

/-- The loop over the entries from the `i`-th one on. thot_wg_proc.cc:252-275. -/
def entryLines (comps : List (List String)) (arcs : List (List (Nat × Nat))) :
    Nat → List (String × List String) → List Line
  | _, [] => []
  | i, e :: r => entryLine e.1 e.2 comps[i]? arcs[i]? :: entryLines comps arcs (i + 1) r

/-- `printNbList`. thot_wg_proc.cc:223-279. -/
def printNbList (weights : List (String × String)) (nblist : List (String × List String))
    (comps : List (List String)) (arcs : List (List (Nat × Nat))) : List Line :=
  (if weights.isEmpty then [] else [header weights]) ++ entryLines comps arcs 0 nblist

/-- The loop that reads the score components: `k` is `i-3`. thot_ll_weight_upd_nblist.cc:298-313. -/
def compsLoop (va : List Bool) : Nat → List String → List String
  | _, [] => []
  | k, f :: r =>
    if f = bars then []
    else if va.isEmpty then f :: compsLoop va (k + 1) r
    else if va.getD k false then f :: compsLoop va (k + 1) r
    else compsLoop va (k + 1) r

/-- The words of the translation.  Without any `|||` the index ends in zero and `dollar(0)` comes first.
thot_ll_weight_upd_nblist.cc:317-333. -/
def transOf (fields : Line) : List String :=
  if bars ∈ fields then (fields.reverse.takeWhile (fun f => decide (f ≠ bars))).reverse else fields ++ fields

/-- `obtain_nblist_and_scr_comps_for_file`: the translations and their score components.
thot_ll_weight_upd_nblist.cc:270-342. -/
def readFile (va : List Bool) (lines : List Line) : List (List String × List String) :=
  (lines.drop 1).map fun l => (transOf l, compsLoop va 0 (l.drop 2))

/-- `obtain_nblists_and_scr_comps`: the first component is the list of the names of the files; `files` gives the
contents. thot_ll_weight_upd_nblist.cc:345-389. -/
def readFiles {Nm : Type} (va : List Bool) (files : Nm → Option (List Line)) :
    List Nm → Option (List (List (List String × List String)))
  | [] => some []
  | n :: r =>
    match files n with
    | none => none
    | some ls =>
      match readFiles va files r with
      | none => none
      | some rs => some (readFile va ls :: rs)

/-- The vector with the current weights. thot_ll_weight_upd_nblist.cc:411-421. -/
def currWeights {W : Type} (va : List Bool) : Nat → List W → List W
  | _, [] => []
  | i, w :: r =>
    if va.isEmpty then w :: currWeights va (i + 1) r
    else if va.getD i false then w :: currWeights va (i + 1) r
    else currWeights va (i + 1) r

/-- The loop that prints the result; `j` is what remains of the new weights. thot_ll_weight_upd_nblist.cc:440-457. -/
def printLoop {W : Type} (zero : W) : List Bool → List W → List W
  | [], _ => []
  | true :: r, w :: ws => w :: printLoop zero r ws
  | true :: r, [] => printLoop zero r []
  | false :: r, ws => zero :: printLoop zero r ws

/-- The weights printed. thot_ll_weight_upd_nblist.cc:431-458. -/
def printWeights {W : Type} (zero : W) (va : List Bool) (new : List W) : List W :=
  if va.isEmpty then new else printLoop zero va new

/-- `update_ll_weights` without the files: `upd` is `updateClosedCorpus`. thot_ll_weight_upd_nblist.cc:392-460. -/
def update {W Nb : Type} (zero : W) (va : List Bool) (upd : Nb → List W → List W) (nb : Nb) (ws : List W) : List W :=
  printWeights zero va (upd nb (currWeights va 0 ws))

open Thot.Opts in
/-- `takeParameters` and `checkParameters`: names of the files, values of `-va` and of `-w`; `none`: error.  The
functions that read options return -1 when the option is missing, which is not `THOT_ERROR` (1), so that only the
checks fail. thot_ll_weight_upd_nblist.cc:184-241. -/
def takePars {F : Type} (scan : Thot.Awk.Str → Option F) (args : List Thot.Awk.Str) :
    Option (Thot.Awk.Str × Thot.Awk.Str × List Thot.Awk.Str × List (Option F)) :=
  let nb := (readVal "-nb".toList args).getD []
  let r := (readVal "-r".toList args).getD []
  let va := (readSeq "-va".toList args).getD []
  let w := (readFloatSeq scan "-w".toList args).getD []
  if nb = [] then none
  else if r = [] then none
  else if va.length ≠ w.length then none
  else some (nb, r, va, w)

end Thot.NbFile
