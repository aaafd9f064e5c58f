import Verif.Desc.Props

/-!
Model of the processing of options: `/repo/src/nlp_common/options.cc`, the parameters of
`/repo/src/stack_dec/thot_ms_dec.cc` and `thot_ms_alig.cc`, and `ThotDecoder::initUsingCfgFile`.

`args` is `argv` without its first element. Conversions of numbers (`sscanf` with `%d` and `%f`, which leave the variable
untouched when the text is not a number) are arbitrary partial functions.
-/
namespace Thot.Opts
open Thot.Awk (Str)
open Thot.Desc (fld nf linesOf)

/-- `isOption`: a dash followed by something that is not a digit. options.cc:106-117. -/
def isOption : Str → Bool
  | '-' :: c :: _ => !(c == '0' || c == '1' || c == '2' || c == '3' || c == '4' || c == '5' || c == '6' || c == '7' || c == '8' || c == '9')
  | _ => false

/-- `readSTLstring`: the argument after the first occurrence of the label among all the arguments but the last one. The
other functions for one value use the same loop. options.cc:445-460; 128-146, 156-171, 182-200, 211-226, 285-300, 311-326. -/
def readVal (label : Str) : List Str → Option Str
  | a :: b :: r => if a = label then some b else readVal label (b :: r)
  | _ => none

/-- `readInt`, `readFloat`, ...: the new value of the variable and whether the function returns 0.
options.cc:156-171, 211-226. -/
def readNum {N : Type} (scan : Str → Option N) (label : Str) (args : List Str) (v : N) : N × Bool :=
  match readVal label args with
  | none => (v, false)
  | some x => ((scan x).getD v, true)

/-- `readOption`, `existParam`. options.cc:61-98. -/
def readFlag (label : Str) : List Str → Bool
  | [] => false
  | a :: r => if a = label then true else readFlag label r

/-- `readTwoSTLstrings`. options.cc:472-500. -/
def readTwo (label : Str) : List Str → Option (Str × Str)
  | a :: b :: r =>
    if a = label then (match r with
      | c :: _ => some (b, c)
      | [] => none)
    else readTwo label (b :: r)
  | _ => none

/-- The inner loop of `readStringSeq`. options.cc:541-553. -/
def seqLoop : List Str → List Str
  | [] => []
  | a :: r => if isOption a then [] else a :: seqLoop r

/-- `readStringSeq`. options.cc:528-561. -/
def readSeq (label : Str) : List Str → Option (List Str)
  | a :: b :: r => if a = label then some (seqLoop (b :: r)) else readSeq label (b :: r)
  | _ => none

/-- The inner loop of `readFloatSeq`: an element that is not a number gets the previous value of the variable, which
is not initialised at first (`none`). options.cc:252-268. -/
def floatLoop {F : Type} (scan : Str → Option F) (value : Option F) : List Str → List (Option F)
  | [] => []
  | a :: r =>
    if isOption a then []
    else ((scan a).or value) :: floatLoop scan ((scan a).or value) r

/-- `readFloatSeq`. options.cc:238-275. -/
def readFloatSeq {F : Type} (scan : Str → Option F) (label : Str) : List Str → Option (List (Option F))
  | a :: b :: r => if a = label then some (floatLoop scan none (b :: r)) else readFloatSeq scan label (b :: r)
  | _ => none

/-- The loop over the characters of the comment string. options.cc:603-611. -/
def prefixLoop : Str → Str → Bool
  | [], _ => true
  | _ :: _, [] => false
  | c :: cs, d :: ds => if d ≠ c then false else prefixLoop cs ds

/-- options.cc:594-613. -/
def isComment (comment firstCol : Str) : Bool :=
  if firstCol = comment then true
  else if firstCol.length ≥ comment.length then prefixLoop comment firstCol
  else false

/-- The arguments of a line. options.cc:591-625. -/
def lineArgs (comment : Str) (l : Str) : List Str :=
  if nf l ≥ 1 then
    if isComment comment (fld l 1) then [] else (List.range (nf l)).map fun i => fld l (i + 1)
  else []

/-- `extractParsFromFile`: the arguments after the name of the file; `none`: the file cannot be opened. options.cc:572-628. -/
def extractPars (comment : Str) (file : Option Str) : Option (List Str) :=
  file.map fun f => (linesOf f).flatMap (lineArgs comment)

def hash : Str := "#".toList

/-! ### `thot_ms_dec` and `thot_ms_alig` -/

/-- `thot_ms_dec_pars` and `thot_ms_alig_pars` (the latter has no `outFile`; the former has neither `E`, `ref`, `p` nor
`cov`). thot_ms_dec.cc:78-109, thot_ms_alig.cc:79-112. -/
structure Pars (F : Type) where
  W : F
  S : Int
  A : Int
  E : Int
  nomon : Int
  I : Int
  G : Int
  heuristic : Int
  lm : Str
  tm : Str
  cf : Str
  src : Str
  ref : Str
  out : Str
  be : Bool
  p : Bool
  cov : Bool
  weights : List (Option F)
  wg : Str
  wgp : F
  verbosity : Nat

section
variable {F : Type}

/-- The conversions `%d` and `%f` of `sscanf`. -/
structure Scan (F : Type) where
  int : Str → Option Int
  flt : Str → Option F

def num {N : Type} (scan : Str → Option N) (label : String) (args : List Str) (v : N) : N := (readNum scan label.toList args v).1
def str (label : String) (args : List Str) (v : Str) : Str := (readVal label.toList args).getD v
def flag (label : String) (args : List Str) (v : Bool) : Bool := if readFlag label.toList args then true else v

/-- The verbosity options. thot_ms_dec.cc:868-899, thot_ms_alig.cc:956-987. -/
def verbosityOf (args : List Str) : Nat :=
  if readFlag "-v".toList args then 1
  else if readFlag "-v1".toList args then 2
  else if readFlag "-v2".toList args then 3
  else 0

/-- `-wgp` is read only if `-wg` is given among the same arguments. thot_ms_dec.cc:860-865, thot_ms_alig.cc:947-953. -/
def wgpOf (sc : Scan F) (args : List Str) (v : F) : F :=
  if (readVal "-wg".toList args).isSome then num sc.flt "-wgp" args v else v

/-- `takeParametersGivenArgcArgv` of `thot_ms_dec`. thot_ms_dec.cc:806-900. -/
def takeDec (sc : Scan F) (args : List Str) (t : Pars F) : Pars F :=
  { t with
    W := num sc.flt "-W" args t.W
    S := num sc.int "-S" args t.S
    A := num sc.int "-A" args t.A
    nomon := num sc.int "-nomon" args t.nomon
    I := num sc.int "-I" args t.I
    G := num sc.int "-G" args t.G
    heuristic := num sc.int "-h" args t.heuristic
    lm := str "-lm" args t.lm
    tm := str "-tm" args t.tm
    cf := str "-cf" args t.cf
    src := str "-t" args t.src
    out := str "-o" args t.out
    be := flag "-be" args t.be
    weights := (readFloatSeq sc.flt "-tmw".toList args).getD t.weights
    wg := str "-wg" args t.wg
    wgp := wgpOf sc args t.wgp
    verbosity := verbosityOf args }

/-- `takeParametersGivenArgcArgv` of `thot_ms_alig`. thot_ms_alig.cc:883-988. -/
def takeAlig (sc : Scan F) (args : List Str) (t : Pars F) : Pars F :=
  { t with
    p := flag "-p" args t.p
    cov := flag "-cov" args t.cov
    W := num sc.flt "-W" args t.W
    S := num sc.int "-S" args t.S
    A := num sc.int "-A" args t.A
    E := num sc.int "-E" args t.E
    nomon := num sc.int "-nomon" args t.nomon
    I := num sc.int "-I" args t.I
    G := num sc.int "-G" args t.G
    heuristic := num sc.int "-h" args t.heuristic
    lm := str "-lm" args t.lm
    tm := str "-tm" args t.tm
    cf := str "-cf" args t.cf
    src := str "-t" args t.src
    ref := str "-r" args t.ref
    be := flag "-be" args t.be
    weights := (readFloatSeq sc.flt "-tmw".toList args).getD t.weights
    wg := str "-wg" args t.wg
    wgp := wgpOf sc args t.wgp
    verbosity := verbosityOf args }

/-- `takeParameters`: the configuration file named by `-c`, then the command line; `none`: `THOT_ERROR`. `files` gives the contents of
the files that can be opened. thot_ms_dec.cc:753-803, thot_ms_alig.cc:829-879. -/
def takeParameters (take : List Str → Pars F → Pars F) (files : Str → Option Str) (dflt : Pars F) (args : List Str) : Option (Pars F) :=
  match readVal "-c".toList args with
  | none => some (take args dflt)
  | some name => (extractPars hash (files name)).map fun cfg => take args (take cfg dflt)

end

/-! ### `ThotDecoder::initUsingCfgFile` -/

/-- Options with one value. ThotDecoder.cc:578-957. -/
def valLabels : List Str := ["-tm", "-lm", "-cf", "-W", "-S", "-A", "-E", "-nomon", "-G", "-h", "-np", "-wgp", "-wgh", "-uc"].map (·.toList)
/-- Options with a sequence of values. ThotDecoder.cc:760-882. -/
def seqLabels : List Str := ["-olp", "-tmw", "-ecw", "-catw"].map (·.toList)
def sBe : Str := "-be".toList
def sSp : Str := "-sp".toList

/-- What has been read: the text of the value of each option (`none`: the default is kept), the elements of each sequence, and the
flag `-be`. Conversions to numbers are applied to these texts. ThotDecoder.cc:562-575. -/
structure Cfg where
  val : Str → Option Str
  seq : Str → List Str
  be : Bool

/-- Result of the loop: values, an error, or an access past the end of the arguments. -/
inductive Res where
  | ok (c : Cfg)
  | error
  | undef

def Cfg.setVal (c : Cfg) (l v : Str) : Cfg := { c with val := fun x => if x = l then some v else c.val x }
def Cfg.addSeq (c : Cfg) (l : Str) (vs : List Str) : Cfg := { c with seq := fun x => if x = l then c.seq x ++ vs else c.seq x }

/-- The loop over the arguments. At most one test of an iteration succeeds, because of `matched`. A missing last value is an error except for
`-sp`, whose value is read without a test. The first argument bounds the number of iterations. ThotDecoder.cc:577-959. -/
def cfgLoop : Nat → List Str → Cfg → Res
  | 0, _, c => .ok c
  | _ + 1, [], c => .ok c
  | n + 1, a :: r, c =>
    if a ∈ valLabels then
      match r with
      | [] => .error
      | v :: r' => cfgLoop n r' (c.setVal a v)
    else if a = sBe then cfgLoop n r { c with be := true }
    else if a ∈ seqLabels then
      match r with
      | [] => .error
      | _ :: _ => cfgLoop n (r.drop (seqLoop r).length) (c.addSeq a (seqLoop r))
    else if a = sSp then
      match r with
      | [] => .undef
      | v :: r' => cfgLoop n r' (c.setVal a v)
    else cfgLoop n r c

/-- Initial values: nothing read. ThotDecoder.cc:562-575. -/
def Cfg.empty : Cfg := ⟨fun _ => none, fun _ => [], false⟩

/-- The first part of `initUsingCfgFile`. ThotDecoder.cc:545-959. -/
def readCfg (file : Option Str) : Res :=
  match extractPars hash file with
  | none => .error
  | some args => cfgLoop args.length args Cfg.empty

end Thot.Opts
