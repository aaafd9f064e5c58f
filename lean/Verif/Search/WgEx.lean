import Verif.Search.WgAll
import Verif.Search.WgTopo

/-!
Properties C93-C95: limits and examples.
-/
namespace Thot.Search
open Thot.StrProc (Str)
open Thot.AMap (lk)
open Thot.WordGraph (WG Arc Live Path own)

variable {S : Type} [DecidableEq S]

/-! ### Without word graph -/

theorem pushAllW_off {o : WgOpts} (ho : o.enabled = false) (m : Mode) (D : Dec S) (M : Model) (I : Input) (p : Hyp) (g : WG) :
    ∀ (hs : List Hyp) (s : DState S), pushAllW o m D M I p hs s g = (pushAll D M I.src.length hs s).map fun s => (s, g)
  | [], s => rfl
  | h :: hs, s => by
    rw [pushAllW, pushAll]
    cases hp : decPush D M I.src.length s h with
    | none => rfl
    | some r =>
      simp only [addArcTo, ho]
      exact pushAllW_off ho m D M I p g hs r.2

theorem handleAllW_off {o : WgOpts} (ho : o.enabled = false) (m : Mode) (D : Dec S) (M : Model) (I : Input) (g : WG) :
    ∀ (hs : List Hyp) (L : Loop S), handleAllW o m D M I hs L g = (handleAll m D M I hs L).map fun L => (L, g)
  | [], L => rfl
  | h :: hs, L => by
    rw [handleAllW, handleAll]
    have h1 : handleW o m D M I L g h = (handle m D M I L h).map fun L => (L, g) := by
      unfold handleW handle
      split
      · split
        · rfl
        · cases decPush D M I.src.length L.s h <;> rfl
      · cases expandMode m M I h with
        | none => rfl
        | some es =>
          dsimp only
          rw [pushAllW_off ho]
          cases pushAll D M I.src.length es.reverse L.s <;> rfl
    rw [h1]
    cases handle m D M I L h with
    | none => rfl
    | some L' => exact handleAllW_off ho m D M I g hs L'

theorem decLoopW_off {o : WgOpts} (ho : o.enabled = false) (m : Mode) (D : Dec S) (M : Model) (I : Input) (g : WG) :
    ∀ (k : Nat) (L : Loop S), decLoopW o m D M I k L g = (decLoop m D M I k L).map fun L => (L, g)
  | 0, L => rfl
  | k + 1, L => by
    unfold decLoopW decLoop
    split
    · rfl
    · cases popUpTo D M I.src.length D.I L.s with
      | none => rfl
      | some r =>
        obtain ⟨hs, s⟩ := r
        cases hs with
        | nil => rfl
        | cons x xs =>
          dsimp only
          rw [handleAllW_off ho]
          cases handleAll m D M I (x :: xs) ⟨L.ended, L.result, s⟩ with
          | none => rfl
          | some L' => exact decLoopW_off ho m D M I g k L'

/-- When the word graph is disabled the search is the same and the graph has no arcs. -/
theorem C93_disabled {o : WgOpts} (ho : o.enabled = false) (m : Mode) (D : Dec S) (M : Model) (I : Input)
    (ms : MultiStack.MS S HypData) (g : WG) :
    (translateW o m D M I ms g).map Prod.fst = translate m D M I ms ∧
    (∀ L g1, translateW o m D M I ms g = some (L, g1) → g1.arcs = [] ∧ g1.init = 0) ∧
    ∀ s, nextTransW o m D M I s g = (nextTrans m D M I s).map fun L => (L, g) := by
  have hpost : ∀ L, (postTrans m D I L (WordGraph.clear g)).arcs = [] ∧ (postTrans m D I L (WordGraph.clear g)).init = 0 := by
    intro L; unfold postTrans; split <;> exact ⟨rfl, rfl⟩
  refine ⟨?_, ?_, fun s => decLoopW_off ho m D M I g _ _⟩
  · unfold translateW translate decode
    split
    · cases decPush D M I.src.length ⟨MultiStack.clearAll ms, D.worst⟩ (nullHyp M) with
      | none => rfl
      | some r =>
        dsimp only
        rw [decLoopW_off ho]
        cases decLoop m D M I (D.maxIter - 1) ⟨false, nullHyp M, r.2⟩ <;> rfl
    · rfl
  · intro L g1 h
    unfold translateW at h
    split at h
    · split at h
      · cases h
      · rw [decLoopW_off ho] at h
        obtain ⟨⟨L2, g2⟩, h1, h2⟩ := Option.map_eq_some_iff.1 h
        obtain ⟨L3, h3, h4⟩ := Option.map_eq_some_iff.1 h1
        cases h4
        cases h2
        exact hpost L2
    · cases h
      exact ⟨rfl, rfl⟩

/-! ### Switching the word graph on between two calls -/

/-- The claim that building the word graph is safe even if it is switched on after `translate`. -/
def C93_full : Prop := ∀ (o o' : WgOpts) (M : Model) (I : Input) (D : Dec (List Bool)) (ms : MultiStack.MS (List Bool) HypData)
  (g : WG), FromRaw I → lengthsOk .trans I = true → WgContract .trans D M I → o.enabled = false → o'.enabled = true →
  ∀ L g1, translateW o .trans D M I ms g = some (L, g1) → (nextTransW o' .trans D M I L.s g1).isSome = true

/-- Whether each of the two words of `exOInput` is covered. -/
def exCov (d : HypData) : List Bool := [1, 2].map fun j => d.srcSegm.any fun s => decide (s.1 ≤ j ∧ j ≤ s.2)

/-- The states of `exO` are the sets of covered words. -/
def exWDec (bf : Bool) : Dec (List Bool) where
  I := 1
  breadthFirst := bf
  pruning := false
  minScore := -1000
  worst := -1000
  maxIter := 100
  G := -100000000
  st := exCov
  cls := fun d => if bf then 2 - uncovered 2 d else 0

def exOpts (e : Bool) : WgOpts := ⟨e, true, fun _ d => [(d.ntarget.length : Rat)]⟩

theorem exW_contract (bf : Bool) : WgContract .trans (exWDec bf) exO exOInput where
  null := fun h hr he => by
    have : ∀ x ∈ exReach 2, exCov x.data = exCov nullData → x = nullHyp exO := by decide +kernel
    exact this h (exO_reach hr) he
  complete := fun h g hr hg he => by
    have : ∀ x ∈ exReach 2, ∀ y ∈ exReach 2, exCov x.data = exCov y.data → isComplete 2 x.data = isComplete 2 y.data := by
      decide +kernel
    exact this h (exO_reach hr) g (exO_reach hg) he
  heur := fun _ _ _ _ _ => rfl
  step := fun h g hs h' hr hg he hex hm => by
    have : ∀ x ∈ exReach 2, ∀ y ∈ exReach 2, exCov x.data = exCov y.data → (expandMode .trans exO exOInput x).getD [] ≠ [] →
        x = y := by decide +kernel
    have hhg : h = g := this h (exO_reach hr) g (exO_reach hg) he (by
      rw [hex]; intro h0; simp only [Option.getD_some] at h0; rw [h0] at hm; cases hm)
    subst hhg
    exact ⟨hs, h', hex, hm, rfl, rfl, fun t w h1 h2 t' h3 => by rw [h1] at h3; cases h3; exact h2⟩

/-- A container with room. -/
def exMs : MultiStack.MS (List Bool) HypData := { MultiStack.new [] with max := 100 }

/-- The first call stops after one iteration; the state of the complete translation `z` has an index smaller than that of
`x`, expanded later to the complete translation `x y`. -/
theorem C93_counterexample : ¬ C93_full := by
  intro H
  have hc := exW_contract false
  have h := H (exOpts false) (exOpts true) exO exOInput { exWDec false with maxIter := 2 } exMs WordGraph.new exO_fromRaw
    (by decide +kernel) ⟨hc.null, hc.complete, hc.heur, hc.step⟩ rfl rfl
  have hx : ∃ L g1, translateW (exOpts false) .trans { exWDec false with maxIter := 2 } exO exOInput exMs WordGraph.new =
      some (L, g1) ∧
      (nextTransW (exOpts true) .trans { exWDec false with maxIter := 2 } exO exOInput L.s g1).isSome = false := by
    have : ((translateW (exOpts false) .trans { exWDec false with maxIter := 2 } exO exOInput exMs WordGraph.new).map fun r =>
      (nextTransW (exOpts true) .trans { exWDec false with maxIter := 2 } exO exOInput r.1.s r.2).isSome) = some false := by
      decide +kernel
    obtain ⟨⟨L, g1⟩, h1, h2⟩ := Option.map_eq_some_iff.1 this
    exact ⟨L, g1, h1, h2⟩
  obtain ⟨L, g1, h1, h2⟩ := hx
  have := h L g1 h1
  rw [h2] at this; cases this

/-! ### Examples -/

/-- The hypotheses of C93 and C94 are met: the search with recombination loses the translation `z`, of score -2, but the word
graph has it. -/
example : ∃ L g1 L2 g2, WSession (exOpts true) .trans (exWDec false) exO exOInput exMs WordGraph.new L g1 ∧
    WSession (exOpts true) .trans (exWDec false) exO exOInput exMs WordGraph.new L2 g2 ∧
    WgContract .trans (exWDec false) exO exOInput ∧ FromRaw exOInput ∧ lengthsOk .trans exOInput = true ∧
    weight .trans exO exOInput (nullHyp exO) ≤ exMs.max ∧ (∀ h, Reach .trans exO exOInput h → (exWDec false).minScore ≤ h.score) ∧
    isComplete 2 L.result.data = true ∧ L.result.score = -1 ∧ isComplete 2 L2.result.data = false ∧
    MultiStack.empty L2.s.ms = true ∧
    g2.arcs = [⟨0, 1, -5, ["y".toList]⟩, ⟨0, 2, -2, ["z".toList]⟩, ⟨0, 3, -1, ["x".toList]⟩, ⟨3, 2, 0, ["y".toList]⟩,
      ⟨1, 2, -5, ["x".toList]⟩] ∧ g2.final = [2] := by
  have hx : ((translateW (exOpts true) .trans (exWDec false) exO exOInput exMs WordGraph.new).bind fun r =>
      (nextTransW (exOpts true) .trans (exWDec false) exO exOInput r.1.s r.2).map fun r2 =>
        (isComplete 2 r.1.result.data, r.1.result.score, isComplete 2 r2.1.result.data, MultiStack.empty r2.1.s.ms, r2.2.arcs, r2.2.final)) =
      some (true, (-1 : Int), false, true, [⟨0, 1, -5, ["y".toList]⟩, ⟨0, 2, -2, ["z".toList]⟩, ⟨0, 3, -1, ["x".toList]⟩, ⟨3, 2, 0, ["y".toList]⟩,
      ⟨1, 2, -5, ["x".toList]⟩], [2]) := by
    set_option synthInstance.maxHeartbeats 200000 in
    set_option synthInstance.maxSize 1000 in
    decide +kernel
  obtain ⟨⟨L, g1⟩, h1, h2⟩ := Option.bind_eq_some_iff.1 hx
  obtain ⟨⟨L2, g2⟩, h3, h4⟩ := Option.map_eq_some_iff.1 h2
  simp only [Prod.mk.injEq] at h4
  obtain ⟨k1, k2, k3, k4, k5, k6⟩ := h4
  refine ⟨L, g1, L2, g2, .first h1, .next (.first h1) h3, exW_contract _, exO_fromRaw, by decide +kernel, by decide +kernel, ?_,
    k1, k2, k3, k4, k5, k6⟩
  intro h hr
  have : ∀ x ∈ exReach 2, (-1000 : Int) ≤ x.score := by decide +kernel
  exact this h (exO_reach hr)

/-- The hypotheses of `C95_topo_partial` are met. -/
example : ByCoverage .trans (exWDec true) exO exOInput ∧
    (translateW (exOpts true) .trans (exWDec true) exO exOInput exMs WordGraph.new).map (fun r => r.2.arcs.length) = some 5 := by
  refine ⟨⟨fun h g hr hg he => ?_, fun h g hr hg he => ?_⟩, by decide +kernel⟩
  · have : ∀ x ∈ exReach 2, ∀ y ∈ exReach 2, exCov x.data = exCov y.data → uncovered 2 x.data = uncovered 2 y.data := by
      decide +kernel
    exact this h (exO_reach hr) g (exO_reach hg) he
  · have : ∀ x ∈ exReach 2, ∀ y ∈ exReach 2, (exWDec true).cls x.data ≤ (exWDec true).cls y.data →
        uncovered 2 y.data ≤ uncovered 2 x.data := by decide +kernel
    exact this h (exO_reach hr) g (exO_reach hg) he

/-! ### Best-first search -/

/-- Words `a b c` translated by `x y w`, or `a b` as a phrase by `z`. -/
def exV : Model where
  A := 2
  E := 1
  U := 0
  W := .best 10
  opts := fun s => if s = ["a".toList] then [["x".toList]] else if s = ["b".toList] then [["y".toList]]
    else if s = ["a".toList, "b".toList] then [["z".toList]] else if s = ["c".toList] then [["w".toList]] else []
  phrScore := fun _ t => -(t.length : Int)
  extScore := fun d d' => if d'.ntarget.length = d.ntarget.length + 1 ∧ d'.srcSegm.any (fun s => s == (1, 2)) then -1 else -3
  heur := fun _ => 0

def exVInput : Input where
  src := ["a".toList, "b".toList, "c".toList]
  md := ⟨["a".toList, "b".toList, "c".toList], []⟩

/-- The states are the number of covered words: translation is monotonic. -/
def exVDec : Dec Nat where
  I := 1
  breadthFirst := false
  pruning := false
  minScore := -1000
  worst := -1000
  maxIter := 100
  G := -100000000
  st := fun d => uncovered 3 d
  cls := fun d => 3 - uncovered 3 d

/-- The claim of C95 for all kinds of search. -/
def C95_full : Prop := ∀ (o : WgOpts) (M : Model) (I : Input) (D : Dec Nat) (ms : MultiStack.MS Nat HypData) (g : WG),
  FromRaw I → lengthsOk .trans I = true → ByCoverage .trans D M I → o.enabled = true →
  ∀ L g1, WSession o .trans D M I ms g L g1 → WordGraph.Topo g1

/-- The hypotheses of `exV` after at most `k` expansions. -/
def exVReach : Nat → List Hyp
  | 0 => [nullHyp exV]
  | k + 1 => exVReach k ++ (exVReach k).flatMap fun h => (expandMode .trans exV exVInput h).getD []

theorem exV_reach {h : Hyp} (hr : Reach .trans exV exVInput h) : h ∈ exVReach 3 := by
  induction hr with
  | null => decide +kernel
  | @step a b hs _ he hm ih =>
    have hcl : ∀ x ∈ exVReach 3, ∀ y ∈ (expandMode .trans exV exVInput x).getD [], y ∈ exVReach 3 := by decide +kernel
    exact hcl a ih b (by rw [he]; exact hm)

/-- `z` is expanded before `x`, which leads to the state of `z`. -/
theorem C95_counterexample : ¬ C95_full := by
  intro H
  have hcov : ByCoverage .trans exVDec exV exVInput := by
    refine ⟨fun h g hr hg he => he, fun h g hr hg he => ?_⟩
    have : ∀ x ∈ exVReach 3, ∀ y ∈ exVReach 3, exVDec.cls x.data ≤ exVDec.cls y.data →
        uncovered 3 y.data ≤ uncovered 3 x.data := by decide +kernel
    exact this h (exV_reach hr) g (exV_reach hg) he
  have h := H (exOpts true) exV exVInput exVDec { MultiStack.new [] with max := 100 } WordGraph.new
    ⟨"a b c".toList, by decide +kernel, by decide +kernel⟩ (by decide +kernel) hcov rfl
  have hx : ((translateW (exOpts true) .trans exVDec exV exVInput { MultiStack.new [] with max := 100 } WordGraph.new).bind fun r =>
      (nextTransW (exOpts true) .trans exVDec exV exVInput r.1.s r.2).map fun r2 => r2.2.arcs) =
      some [⟨0, 1, -1, ["z".toList]⟩, ⟨0, 2, -3, ["x".toList]⟩, ⟨1, 3, -1, ["w".toList]⟩, ⟨2, 1, -3, ["y".toList]⟩] := by
    decide +kernel
  obtain ⟨⟨L, g1⟩, h1, h2⟩ := Option.bind_eq_some_iff.1 hx
  obtain ⟨⟨L2, g2⟩, h3, h4⟩ := Option.map_eq_some_iff.1 h2
  dsimp only at h4
  exact h L2 g2 (.next (.first h1) h3) 2 3 _ _ (by rw [h4]; rfl) (by rw [h4]; rfl) (by omega) rfl

end Thot.Search
