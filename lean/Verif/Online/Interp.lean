import Verif.Online.Model
import Verif.Dhs.Best
/-! Adjustment of the weights of the linear interpolation of the phrase models (C200): `updatePmLinInterpWeights`
(WeightUpdateUtils.cc:111-214), the same code as `PhrLocalSwLiTm::updateLinInterpWeights` (PhrLocalSwLiTm.cc:91-176). -/
namespace Thot.Online
open Thot.Dhs

/-- The parts of the code that are not modelled: the perplexity of the phrase pairs of the corpus with two interpolation
weights (WeightUpdateUtils.cc:216-262), the conversion of a number to `float`, the value that is read back for a number
printed with `%g`, DBL_MAX, and the constants of the minimisation. -/
structure Env where
  perp : Rat → Rat → Rat
  fl : Rat → Rat
  prn : Rat → Rat
  dblMax : Rat
  ftol : Rat
  pn : Rat
  qn : Rat
  maxIt : Nat

/-- WeightUpdateUtils.cc:276-298 (PhrLocalSwLiTm.cc:362-380): the weights are set to `x` (that is, `float`s) and the value is
their perplexity if both are at least 0 and below 1, DBL_MAX if not. -/
def objVal (e : Env) (x : Pt) : Rat :=
  if (0 ≤ at' x 0 ∧ 0 ≤ at' x 1) ∧ (at' x 0 < 1 ∧ at' x 1 < 1) then e.perp (e.fl (at' x 0)) (e.fl (at' x 1)) else e.dblMax

/-- WeightUpdateUtils.cc:152-190: the loop; `images` are the values in the temporary file and `lam` the weights of the
models. The fuel bounds the iterations. -/
def interpLoop (e : Env) (w0 : Rat × Rat) : Nat → List Rat → Rat × Rat → Option (Res × (Rat × Rat))
  | 0, _, _ => none
  | fuel + 1, images, lam => match replay (simplex 2 e.ftol e.pn e.qn e.maxIt [w0.1, w0.2]) images with
    | .inl r => some (r, lam)
    | .inr x => interpLoop e w0 fuel (images ++ [e.prn (objVal e x)]) (e.fl (at' x 0), e.fl (at' x 1))

/-- WeightUpdateUtils.cc:111-214: whether the result is THOT_OK, and the weights of the two models at the end. `corpusOk`: the
phrase pairs could be extracted from the corpus. -/
def updateInterp (e : Env) (corpusOk : Bool) (fuel : Nat) (w0 : Rat × Rat) : Option (Bool × (Rat × Rat)) :=
  if corpusOk then
    match interpLoop e w0 fuel [] w0 with
    | none => none
    | some (r, _) => some (if r.nmax then (false, (e.fl w0.1, e.fl w0.2)) else (true, (e.fl (at' r.sol 0), e.fl (at' r.sol 1))))
  else some (false, w0)

/-- Specification: both weights are at least 0 and below 1. -/
def InRange (a b : Rat) : Prop := 0 ≤ a ∧ a < 1 ∧ 0 ≤ b ∧ b < 1

theorem objVal_in (e : Env) (x : Pt) (h : InRange (at' x 0) (at' x 1)) : objVal e x = e.perp (e.fl (at' x 0)) (e.fl (at' x 1)) := by
  unfold objVal
  rw [if_pos ⟨⟨h.1, h.2.2.1⟩, h.2.1, h.2.2.2⟩]

theorem objVal_out (e : Env) (x : Pt) (h : ¬ InRange (at' x 0) (at' x 1)) : objVal e x = e.dblMax := by
  unfold objVal
  rw [if_neg (fun hh => h ⟨hh.1.1, hh.2.1, hh.1.2, hh.2.2⟩)]

theorem interpLoop_run (e : Env) (w0 : Rat × Rat) :
    let r := evalWith (fun x => e.prn (objVal e x)) (simplex 2 e.ftol e.pn e.qn e.maxIt [w0.1, w0.2])
    ∀ d k, k + d = r.2.length → ∀ (lam : Rat × Rat) (extra : Nat),
      ∃ lam', interpLoop e w0 (d + 1 + extra) ((r.2.take k).map (fun x => e.prn (objVal e x))) lam = some (r.1, lam') := by
  intro r d
  induction d with
  | zero =>
    intro k hk lam extra
    refine ⟨lam, ?_⟩
    have hp : replay (simplex 2 e.ftol e.pn e.qn e.maxIt [w0.1, w0.2]) ((r.2.take k).map (fun x => e.prn (objVal e x))) =
        match r.2[k]? with
        | none => .inl r.1
        | some x => .inr x :=
      replay_prefix (fun x => e.prn (objVal e x)) (simplex 2 e.ftol e.pn e.qn e.maxIt [w0.1, w0.2]) k (by show k ≤ r.2.length; omega)
    rw [Nat.zero_add, Nat.add_comm, interpLoop]
    rw [hp, List.getElem?_eq_none (by omega)]
  | succ d ih =>
    intro k hk lam extra
    have hp : replay (simplex 2 e.ftol e.pn e.qn e.maxIt [w0.1, w0.2]) ((r.2.take k).map (fun x => e.prn (objVal e x))) =
        match r.2[k]? with
        | none => .inl r.1
        | some x => .inr x :=
      replay_prefix (fun x => e.prn (objVal e x)) (simplex 2 e.ftol e.pn e.qn e.maxIt [w0.1, w0.2]) k (by show k ≤ r.2.length; omega)
    have hlt : k < r.2.length := by omega
    have hg : r.2[k]? = some r.2[k] := List.getElem?_eq_getElem hlt
    obtain ⟨lam', hl⟩ := ih (k + 1) (by omega) (e.fl (at' r.2[k] 0), e.fl (at' r.2[k] 1)) extra
    refine ⟨lam', ?_⟩
    rw [show d + 1 + 1 + extra = (d + 1 + extra) + 1 by omega, interpLoop]
    rw [hp, hg]
    simp only
    rw [← hl, List.take_succ_eq_append_getElem hlt, List.map_append]
    rfl

theorem interpLoop_mono (e : Env) (w0 : Rat × Rat) : ∀ (fuel : Nat) (im : List Rat) (lam : Rat × Rat) (res : Res × (Rat × Rat)) (n : Nat),
    interpLoop e w0 fuel im lam = some res → interpLoop e w0 (fuel + n) im lam = some res
  | 0, im, lam, res, n, h => by simp [interpLoop] at h
  | fuel + 1, im, lam, res, n, h => by
    rw [Nat.add_right_comm, interpLoop]
    rw [interpLoop] at h
    revert h
    cases replay (simplex 2 e.ftol e.pn e.qn e.maxIt [w0.1, w0.2]) im with
    | inl r => exact id
    | inr x => exact interpLoop_mono e w0 fuel _ _ res n

/-- C200: for every perplexity function, conversion and initial weights, the adjustment ends, and whenever it has ended:
if it fails the weights of the models are the initial ones; if it succeeds they are a point evaluated by the minimisation
whose perplexity, as printed, is not above that of the initial weights. If the initial weights were in range and had a
perplexity that prints below DBL_MAX, the new weights are in range too, and the perplexity of the models, as printed, is
not above the initial one. -/
theorem C200_interp (e : Env) (corpusOk : Bool) (w0 : Rat × Rat) (hf : e.fl w0.1 = w0.1 ∧ e.fl w0.2 = w0.2) :
    (∃ fuel, (updateInterp e corpusOk fuel w0).isSome) ∧
    ∀ fuel ok w, updateInterp e corpusOk fuel w0 = some (ok, w) →
      (corpusOk = false → ok = false) ∧ (ok = false → w = w0) ∧
      (ok = true → ∃ a b, w = (e.fl a, e.fl b) ∧
        (InRange w0.1 w0.2 → e.prn (e.perp w0.1 w0.2) < e.prn e.dblMax →
          InRange a b ∧ e.prn (e.perp w.1 w.2) ≤ e.prn (e.perp w0.1 w0.2))) := by
  have hrun := interpLoop_run e w0
  have hbest := C190_best (fun x => e.prn (objVal e x)) 2 e.ftol e.pn e.qn e.maxIt [w0.1, w0.2] rfl
  simp only at hrun hbest
  generalize hr : evalWith (fun x => e.prn (objVal e x)) (simplex 2 e.ftol e.pn e.qn e.maxIt [w0.1, w0.2]) = r at hrun hbest
  cases corpusOk with
  | false =>
    refine ⟨⟨0, by simp [updateInterp]⟩, ?_⟩
    intro fuel ok w h
    simp only [updateInterp, Bool.false_eq_true, if_false, Option.some.injEq, Prod.mk.injEq] at h
    obtain ⟨rfl, rfl⟩ := h
    exact ⟨fun _ => rfl, fun _ => rfl, fun h => by simp at h⟩
  | true =>
    obtain ⟨lam', hl⟩ := hrun r.2.length 0 (by omega) w0 0
    simp only [List.take_zero, List.map_nil] at hl
    refine ⟨⟨_, by unfold updateInterp; rw [if_pos rfl, hl]; rfl⟩, ?_⟩
    intro fuel ok w h
    refine ⟨fun h => by simp at h, ?_⟩
    unfold updateInterp at h
    rw [if_pos rfl] at h
    cases hq : interpLoop e w0 fuel [] w0 with
    | none => rw [hq] at h; simp at h
    | some res =>
      have h1 := interpLoop_mono e w0 _ _ _ _ (r.2.length + 1 + 0) hq
      have h2 := interpLoop_mono e w0 _ _ _ _ fuel hl
      rw [Nat.add_comm] at h2
      rw [h1] at h2
      have h3 := Option.some.inj h2
      rw [hq] at h
      subst h3
      simp only [Option.some.injEq] at h
      cases hn : r.1.nmax with
      | true =>
        rw [hn] at h
        simp only [if_true, Prod.mk.injEq] at h
        obtain ⟨rfl, rfl⟩ := h
        exact ⟨fun _ => Prod.ext hf.1 hf.2, fun h => by simp at h⟩
      | false =>
        rw [hn] at h
        simp only [Bool.false_eq_true, if_false, Prod.mk.injEq] at h
        obtain ⟨rfl, rfl⟩ := h
        refine ⟨fun h => by simp at h, fun _ => ⟨at' r.1.sol 0, at' r.1.sol 1, rfl, ?_⟩⟩
        intro hin hlt
        obtain ⟨by1, by2, by3, _⟩ := hbest
        have hs := by2 _ by3
        rw [by1] at hs
        have h0 : objVal e [w0.1, w0.2] = e.perp w0.1 w0.2 := by
          rw [objVal_in e [w0.1, w0.2] hin]
          show e.perp (e.fl w0.1) (e.fl w0.2) = _
          rw [hf.1, hf.2]
        rw [h0] at hs
        have hr2 : InRange (at' r.1.sol 0) (at' r.1.sol 1) := by
          apply Classical.byContradiction
          intro hne
          rw [objVal_out e _ hne] at hs
          exact absurd (le_lt hs hlt) Rat.lt_irrefl
        rw [objVal_in e _ hr2] at hs
        exact ⟨hr2, hs⟩

/-- A run that succeeds: a perplexity with its minimum at 1/2 and 1/4. -/
def exEnv : Env := ⟨fun a b => 4 + (a - 1/2) * (a - 1/2) + (b - 1/4) * (b - 1/4), id, id, 1000000, 1/2, 1/4, 1/8, 50⟩

example : ∃ w, updateInterp exEnv true 40 (3/4, 3/4) = some (true, w) ∧ exEnv.perp w.1 w.2 < exEnv.perp (3/4) (3/4) := by
  refine ⟨((updateInterp exEnv true 40 (3/4, 3/4)).map (·.2)).getD (0, 0), ?_⟩
  decide +kernel

end Thot.Online
