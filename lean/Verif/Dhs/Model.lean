import Verif.Awk.Model
/-!
Model of the downhill simplex minimisation used to tune weights: `step_by_step_simplex`
(src/downhill_simplex/step_by_step_dhs.c), the program that runs it on a file with the values of the target function
obtained so far (thot_dhs_step_by_step_min.cc) and the script that alternates that program and the target function
(utils/downhill_simplex/thot_dhs_min.sh).

The minimisation is a program that asks for the value of the target function at a point and goes on with the answer.
Numbers are exact rationals (`double` in the program); the two irrational side lengths `pn`, `qn` of the initial simplex are
parameters; `sqrt(S) < FTOL` is written `0 < FTOL ∧ S < FTOL^2`. The function `constrain` is always NULL
(thot_dhs_step_by_step_min.cc:126). Messages are not modelled.
-/
namespace Thot.Dhs

abbrev Pt := List Rat

/-- A computation that asks for values of the target function. -/
inductive Prog (α : Type) where
  | done (a : α)
  | ask (x : Pt) (k : Rat → Prog α)

def Prog.bind {α β : Type} : Prog α → (α → Prog β) → Prog β
  | .done a, f => f a
  | .ask x k, f => .ask x (fun y => Prog.bind (k y) f)

/-- step_by_step_dhs.c:62-72: the vertices `v` and the values `f`. -/
structure St where
  v : List Pt
  f : List Rat

/-- Array element (indices are in range wherever it is used). -/
def at' (f : List Rat) (i : Nat) : Rat := f[i]?.getD 0
def vat (v : List Pt) (i : Nat) : Pt := v[i]?.getD []

/-- step_by_step_dhs.c:158-163: index of the largest value. -/
def largest (f : List Rat) : Nat := (List.range f.length).foldl (fun g j => if at' f j > at' f g then j else g) 0

/-- step_by_step_dhs.c:166-171 (also 365-370): index of the smallest value. -/
def smallest (f : List Rat) : Nat := (List.range f.length).foldl (fun s j => if at' f j < at' f s then j else s) 0

/-- step_by_step_dhs.c:174-179: index of the second largest value. -/
def second (f : List Rat) (vs vg : Nat) : Nat :=
  (List.range f.length).foldl (fun h j => if at' f j > at' f h ∧ at' f j < at' f vg then j else h) vs

/-- step_by_step_dhs.c:182-190: the centroid of the vertices other than `vg`. -/
def centroid (n : Nat) (v : List Pt) (vg : Nat) : Pt :=
  (List.range n).map (fun j =>
    ((List.range (n + 1)).map (fun m => if m ≠ vg then at' (vat v m) j else 0)).sum / (n : Rat))

/-- `a + c*(b-d)` for every coordinate, as in step_by_step_dhs.c:195, 222, 260, 279, 307. -/
def comb (n : Nat) (a : Pt) (c : Rat) (b d : Pt) : Pt := (List.range n).map (fun j => at' a j + c * (at' b j - at' d j))

/-- step_by_step_dhs.c:211-214 and similar: vertex `i` becomes `p` with value `y`. -/
def replace (st : St) (i : Nat) (p : Pt) (y : Rat) : St := ⟨st.v.set i p, st.f.set i y⟩

/-- step_by_step_dhs.c:304-310: all vertices but `vs` are moved half way to `vs`. -/
def shrink (n : Nat) (v : List Pt) (vs : Nat) : List Pt :=
  (List.range (n + 1)).map (fun row => if row ≠ vs then comb n (vat v vs) (1/2) (vat v row) (vat v vs) else vat v row)

/-- step_by_step_dhs.c:210-216. -/
def accept (st : St) (vg vs vh : Nat) (vr : Pt) (fr : Rat) : St :=
  if fr < at' st.f vh ∧ fr ≥ at' st.f vs then replace st vg vr fr else st

/-- step_by_step_dhs.c:219-249: expansion. -/
def expand (n : Nat) (st : St) (vg vs : Nat) (vm vr : Pt) (fr : Rat) : Prog St :=
  if fr < at' st.f vs then
    .ask (comb n vm 2 vr vm) (fun fe =>
      .done (if fe < fr then replace st vg (comb n vm 2 vr vm) fe else replace st vg vr fr))
  else .done st

/-- step_by_step_dhs.c:254-295: the point of the contraction. -/
def contractPt (n : Nat) (st : St) (vg : Nat) (vm vr : Pt) (fr : Rat) : Pt :=
  if fr < at' st.f vg then comb n vm (1/2) vr vm else comb n vm (-(1/2)) vm (vat st.v vg)

/-- step_by_step_dhs.c:303-336: shrink, then evaluate vertices `vg` and `vh` (the other moved vertices keep their old
values). -/
def shrinkStep (n : Nat) (st : St) (vg vs vh : Nat) : Prog St :=
  .ask (vat (shrink n st.v vs) vg) (fun a =>
    .ask (vat (shrink n st.v vs) vh) (fun b => .done ⟨shrink n st.v vs, (st.f.set vg a).set vh b⟩))

/-- step_by_step_dhs.c:252-337: contraction. -/
def contract (n : Nat) (st : St) (vg vs vh : Nat) (vm vr : Pt) (fr : Rat) : Prog St :=
  if fr ≥ at' st.f vh then
    .ask (contractPt n st vg vm vr fr) (fun fc =>
      if fc < at' st.f vg then .done (replace st vg (contractPt n st vg vm vr fr) fc)
      else shrinkStep n st vg vs vh)
  else .done st

/-- step_by_step_dhs.c:156-337: one iteration. -/
def iter (n : Nat) (st : St) : Prog St :=
  let vg := largest st.f
  let vs := smallest st.f
  let vh := second st.f vs vg
  let vm := centroid n st.v vg
  let vr := comb n vm 1 vm (vat st.v vg)
  .ask vr (fun fr =>
    (expand n (accept st vg vs vh vr fr) vg vs vm vr fr).bind (fun st2 => contract n st2 vg vs vh vm vr fr))

/-- step_by_step_dhs.c:351-359: the square of `curr_ftol`. With no free variable (`n = 0`) the program computes 0/0 and
never meets the tolerance; here the quotient is 0. -/
def spread (n : Nat) (f : List Rat) : Rat :=
  (f.map (fun y => (y - f.sum / ((n : Rat) + 1)) * (y - f.sum / ((n : Rat) + 1)) / (n : Rat))).sum

/-- step_by_step_dhs.c:360-364. -/
def converged (n : Nat) (ftol : Rat) (f : List Rat) : Bool := decide (0 < ftol ∧ spread n f < ftol * ftol)

/-- step_by_step_dhs.c:154-366: the iterations from number `itr` on, `fuel` of them left; the state and the value of `itr`
after the loop. -/
def loop (n : Nat) (ftol : Rat) : Nat → Nat → St → Prog (St × Nat)
  | 0, itr, st => .done (st, itr)
  | fuel + 1, itr, st => (iter n st).bind (fun st' =>
      if converged n ftol st'.f then .done (st', itr) else loop n ftol fuel (itr + 1) st')

/-- step_by_step_dhs.c:135-142: the values at a list of points, in order. -/
def askAll : List Pt → Prog (List Rat)
  | [] => .done []
  | p :: ps => .ask p (fun y => (askAll ps).bind (fun ys => .done (y :: ys)))

/-- step_by_step_dhs.c:110-128: the initial simplex. -/
def initial (n : Nat) (pn qn : Rat) (start : Pt) : List Pt :=
  (List.range n).map (at' start) ::
    (List.range n).map (fun i => (List.range n).map (fun j => if i = j then pn + at' start j else qn + at' start j))

/-- What the function returns: `start` on exit, `*y`, and whether the code is DSO_NMAX_ERROR. -/
structure Res where
  sol : Pt
  y : Rat
  nmax : Bool

/-- step_by_step_dhs.c:44-408 `step_by_step_simplex`; `maxIt` is MAX_IT. -/
def simplex (n : Nat) (ftol pn qn : Rat) (maxIt : Nat) (start : Pt) : Prog Res :=
  (askAll (initial n pn qn start)).bind (fun f =>
    (loop n ftol maxIt 1 ⟨initial n pn qn start, f⟩).bind (fun r =>
      let vs := smallest r.1.f
      .ask (vat r.1.v vs) (fun m => .done ⟨vat r.1.v vs, m, decide (r.2 ≥ maxIt)⟩)))

/-! ### The program -/

/-- step_by_step_dhs.c:411-438 `get_next_funk`, for all the values of the file of images: lines of more than one
character (newline included); `atof` is a parameter. The fuel exceeds the number of lines. -/
def readImages (atof : Awk.Str → Rat) : Nat → Awk.Str → List Rat
  | 0, _ => []
  | fuel + 1, inp => match Awk.getline inp with
    | none => []
    | some (l, r) => if l.length > 1 then atof l :: readImages atof fuel r else readImages atof fuel r

/-- step_by_step_dhs.c:441-463 `step_by_step_objfunc` along a computation: the values come from the list; when it is
exhausted the computation ends with a request for the value at a point (DSO_EVAL_FUNC). -/
def replay {α : Type} : Prog α → List Rat → α ⊕ Pt
  | .done a, _ => .inl a
  | .ask x _, [] => .inr x
  | .ask _ k, y :: ys => replay (k y) ys

/-- thot_dhs_step_by_step_min.cc:153-167 `genFixedVarsBoolVector`: a variable is free if its value is 0 and its text
begins with a minus sign. The option values are given by their text and their value. -/
def freeVar (x : Awk.Str × Rat) : Bool := decide (x.2 = 0) && x.1.head? == some '-'

/-- thot_dhs_step_by_step_min.cc:182-197 `xToVarVec`; `none` if `x` is too short. -/
def xToVarVec : List (Awk.Str × Rat) → Pt → Option (List Rat)
  | [], _ => some []
  | a :: va, x => if freeVar a then
      (match x with
        | [] => none
        | y :: x' => (xToVarVec va x').map (y :: ·))
    else (xToVarVec va x).map (a.2 :: ·)

/-- thot_dhs_step_by_step_min.cc:200-210 `getNumDims`. -/
def numDims (va : List (Awk.Str × Rat)) : Nat := va.countP freeVar

/-- thot_dhs_step_by_step_min.cc:227-247 `gen_init_sol`; `iv` has as many values as `va` or is empty (TakeParameters). -/
def initSol (va : List (Awk.Str × Rat)) (iv : List Rat) : Pt :=
  if iv = [] then List.replicate (numDims va) (1 / (numDims va : Rat))
  else ((va.zip iv).filter (fun p => freeVar p.1)).map (·.2)

/-- The command line of the program: variables, initial values, tolerance; the side lengths of the first simplex
(step_by_step_dhs.c:107-108) depend on the number of dimensions. -/
structure Cfg where
  va : List (Awk.Str × Rat)
  iv : List Rat
  ftol : Rat
  pn : Nat → Rat
  qn : Nat → Rat
  maxIt : Nat

/-- thot_dhs_step_by_step_min.cc:121-131: the minimisation that is run. -/
def Cfg.prog (c : Cfg) : Prog Res :=
  simplex (numDims c.va) c.ftol (c.pn (numDims c.va)) (c.qn (numDims c.va)) c.maxIt (initSol c.va c.iv)

/-- thot_dhs_step_by_step_min.cc:82-150 `main` on the text of the file of images: the point at which a value is required,
or the result; both printed through `xToVarVec`. -/
def tool (atof : Awk.Str → Rat) (c : Cfg) (images : Awk.Str) : Res ⊕ Pt :=
  replay c.prog (readImages atof (images.length + 1) images)

/-- thot_dhs_step_by_step_min.cc:170-179 `printVarVec`, read by the target function: `pr` is what a number is after it is
printed. -/
def printed (pr : Rat → Rat) (c : Cfg) (x : Pt) : List Rat := ((xToVarVec c.va x).getD []).map pr

/-- thot_dhs_min.sh:247-289: the loop. `target` gives the text written by the target function for the values of the
variables. The result is the final output and the file of images; `none` when the iterations are exhausted. -/
def drive (atof : Awk.Str → Rat) (pr : Rat → Rat) (target : List Rat → Awk.Str) (c : Cfg) :
    Nat → Awk.Str → Option (List Rat × Awk.Str)
  | 0, _ => none
  | fuel + 1, images => match tool atof c images with
    | .inl r => some (printed pr c r.sol, images)
    | .inr x => drive atof pr target c fuel (images ++ target (printed pr c x))

end Thot.Dhs
