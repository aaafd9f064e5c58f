import Verif.Meta.Props
import Verif.Vocab.Props
/-!
Model of `/repo/src/stack_dec/thot_check_constraints.cc`: the tool that checks, for each translation of a sentence and
its phrase alignment, whether the constraints given for the sentence are satisfied. Files are lists of lines (reading
lines is modelled in `Verif.Awk`); the source line has already been read by `obtainTransConstraints`. C214.
-/
namespace Thot.Meta
open Thot.StrProc (Str stringToStringVector stringVectorToString)
open Thot.Vocab (showNat atoi toWordIndex)

/-- `PositionIndex p=atoi(s)`; `none`: not representable. -/
def posOf (s : Str) : Option Nat := (atoi s).map toWordIndex

/-- Reading the cuts: `targetSegmentCuts.push_back(atoi(...))`. thot_check_constraints.cc:303-306. -/
def extractCuts : List Str → Option (List Nat)
  | [] => some []
  | t :: ts =>
    match posOf t, extractCuts ts with
    | some c, some cs => some (c :: cs)
    | _, _ => none

/-- The loop of `extract_align_info` on the tokens from `i` on; `none`: a token that does not exist is read (or a
number is too large). thot_check_constraints.cc:279-311. -/
def extractLoop (ts : List Str) : Option (List Segm × List Nat) :=
  match ts with
  | [] => some ([], [])
  | t :: rest =>
    if t = ['|'] then (extractCuts rest).map (fun c => ([], c))
    else
      match rest[0]?.bind posOf, rest[2]?.bind posOf with
      | some l, some r => (extractLoop (rest.drop 4)).map (fun x => ((l, r) :: x.1, x.2))
      | _, _ => none
termination_by ts.length
decreasing_by simp only [List.length_drop, List.length_cons]; omega

/-- What the tool prints for a translation. -/
inductive Verdict where
  | satisfied
  | notSatisfied
  | targetEmpty
  | alignmentEmpty
  | alignmentIncorrect
  deriving DecidableEq

/-- The loop over the translations: what is printed and whether the return code is `THOT_OK`. The three error messages
end the loop (`break`). thot_check_constraints.cc:231-283. -/
def checkLoop (d : MD) : List Str → List Str → Option (List Verdict × Bool)
  | [], _ => some ([], true)
  | _ :: _, [] => some ([], false)
  | t :: ts, a :: as =>
    if (stringToStringVector t).isEmpty then some ([.targetEmpty], true)
    else if (stringToStringVector a).isEmpty then some ([.alignmentEmpty], true)
    else
      match extractLoop (stringToStringVector a) with
      | none => none
      | some x =>
        if x.1.length > 0 ∧ x.1.length = x.2.length then
          match translationSatisfiesConstraints d x.1 x.2 (stringToStringVector t) with
          | none => none
          | some b => (checkLoop d ts as).map (fun r => ((if b then .satisfied else .notSatisfied) :: r.1, r.2))
        else some ([.alignmentIncorrect], true)

/-! ## C214 -/

/-- The tokens of the alignment information of a translation: `( l , r ) ... | cut ...`. -/
def aligTokens (ss : List Segm) (cuts : List Nat) : List Str :=
  ss.flatMap (fun s => [['('], showNat s.1, [','], showNat s.2, [')']]) ++ [['|']] ++ cuts.map showNat

/-- The line of the alignment file. -/
def aligLine (ss : List Segm) (cuts : List Nat) : Str := stringVectorToString (aligTokens ss cuts)

theorem posOf_showNat (n : Nat) (h : n < 2^31) : posOf (showNat n) = some n := by
  unfold posOf
  rw [Vocab.atoi_showNat n h, Option.map_some]
  unfold toWordIndex
  have : ((n : Int) % 2^32).toNat = n := by omega
  rw [this]

theorem extractCuts_show (cuts : List Nat) (h : ∀ c ∈ cuts, c < 2^31) : extractCuts (cuts.map showNat) = some cuts := by
  induction cuts with
  | nil => rfl
  | cons c cuts ih =>
    rw [List.map_cons, extractCuts, posOf_showNat c (h c List.mem_cons_self),
      ih (fun x hx => h x (List.mem_cons_of_mem _ hx))]

theorem extract_tokens (ss : List Segm) (cuts : List Nat) (hs : ∀ s ∈ ss, s.1 < 2^31 ∧ s.2 < 2^31)
    (hc : ∀ c ∈ cuts, c < 2^31) : extractLoop (aligTokens ss cuts) = some (ss, cuts) := by
  induction ss with
  | nil =>
    show extractLoop (['|'] :: cuts.map showNat) = _
    rw [extractLoop, if_pos rfl, extractCuts_show cuts hc]
    rfl
  | cons s ss ih =>
    have e : aligTokens (s :: ss) cuts =
        ['('] :: showNat s.1 :: [','] :: showNat s.2 :: [')'] :: aligTokens ss cuts := by
      simp [aligTokens]
    rw [e, extractLoop, if_neg (by decide)]
    obtain ⟨h1, h2⟩ := hs s List.mem_cons_self
    have e1 : (showNat s.1 :: [','] :: showNat s.2 :: [')'] :: aligTokens ss cuts)[0]?.bind posOf = some s.1 :=
      posOf_showNat s.1 h1
    have e2 : (showNat s.1 :: [','] :: showNat s.2 :: [')'] :: aligTokens ss cuts)[2]?.bind posOf = some s.2 :=
      posOf_showNat s.2 h2
    rw [e1, e2]
    have e3 : (showNat s.1 :: [','] :: showNat s.2 :: [')'] :: aligTokens ss cuts).drop 4 = aligTokens ss cuts := rfl
    simp only [e3]
    rw [ih (fun x hx => hs x (List.mem_cons_of_mem _ hx))]
    rfl

theorem showNat_word (n : Nat) : showNat n ≠ [] ∧ ∀ c ∈ showNat n, c ≠ ' ' ∧ c ≠ '\t' := by
  refine ⟨Vocab.showNat_ne_nil n, ?_⟩
  intro c hc
  obtain ⟨m, rfl⟩ := Vocab.showNat_digits n c hc
  refine ⟨(Vocab.digit_dig m).2.2.1, ?_⟩
  intro h
  have := (Vocab.digit_dig m).1
  rw [h] at this
  exact absurd this (by decide)

theorem aligTokens_words (ss : List Segm) (cuts : List Nat) :
    ∀ t ∈ aligTokens ss cuts, t ≠ [] ∧ ∀ c ∈ t, c ≠ ' ' ∧ c ≠ '\t' := by
  intro t ht
  unfold aligTokens at ht
  rcases List.mem_append.1 ht with ht | ht
  · rcases List.mem_append.1 ht with ht | ht
    · obtain ⟨s, _, hs⟩ := List.mem_flatMap.1 ht
      simp only [List.mem_cons, List.not_mem_nil, or_false] at hs
      rcases hs with rfl | rfl | rfl | rfl | rfl
      · decide
      · exact showNat_word _
      · decide
      · exact showNat_word _
      · decide
    · rw [List.mem_singleton.1 ht]; decide
  · obtain ⟨c, _, rfl⟩ := List.mem_map.1 ht
    exact showNat_word c

theorem aligLine_tokens (ss : List Segm) (cuts : List Nat) :
    stringToStringVector (aligLine ss cuts) = aligTokens ss cuts :=
  StrProc.C15_roundtrip _ (aligTokens_words ss cuts)

/-- A translation with its phrase alignment. -/
structure Entry where
  line : Str
  ss : List Segm
  cuts : List Nat

/-- A line with words, and an alignment of these words with numbers that fit an `int`. -/
structure Entry.Ok (e : Entry) : Prop where
  ne : stringToStringVector e.line ≠ []
  ss : e.ss ≠ []
  alig : Alignment e.ss e.cuts (stringToStringVector e.line)
  small : (∀ s ∈ e.ss, s.1 < 2^31 ∧ s.2 < 2^31) ∧ ∀ c ∈ e.cuts, c < 2^31

/-- The verdict a translation should get. -/
def Good (d : MD) (e : Entry) : Prop :=
  ∀ c ∈ d.srcPhrTransMap, Honours e.ss e.cuts (stringToStringVector e.line) c.1 c.2

/-- Full statement of C214: the tool says of each translation whether its alignment honours the constraints, and never
reads out of bounds, whatever the files. -/
def C214_full : Prop := ∀ (d : MD) (ts as : List Str), ∃ r, checkLoop d ts as = some r

/-- **C214 (partial).** For files with any number of translations and their alignments, the tool ends well and prints for
each translation, in order, "satisfied" exactly when its alignment honours every constraint. Missing: malformed files
(counterexample). -/
theorem C214_verdicts_partial (d : MD) (es : List Entry) (h : ∀ e ∈ es, e.Ok) :
    ∃ vs, checkLoop d (es.map (·.line)) (es.map fun e => aligLine e.ss e.cuts) = some (vs, true) ∧
      vs.length = es.length ∧
      ∀ (i : Nat) (e : Entry), es[i]? = some e →
        (vs[i]? = some .satisfied ∧ Good d e) ∨ (vs[i]? = some .notSatisfied ∧ ¬ Good d e) := by
  induction es with
  | nil => exact ⟨[], rfl, rfl, by intro i e hi; simp at hi⟩
  | cons e es ih =>
    obtain ⟨vs, h1, h2, h3⟩ := ih (fun x hx => h x (List.mem_cons_of_mem _ hx))
    have he := h e List.mem_cons_self
    obtain ⟨b, hb, hiff⟩ := C79_satisfies d e.ss e.cuts _ he.alig
    have hx : checkLoop d ((e :: es).map (·.line)) ((e :: es).map fun e => aligLine e.ss e.cuts) =
        some ((if b then .satisfied else .notSatisfied) :: vs, true) := by
      rw [List.map_cons, List.map_cons, checkLoop, if_neg (by simpa using he.ne), aligLine_tokens,
        if_neg (by simp [aligTokens]), extract_tokens e.ss e.cuts he.small.1 he.small.2]
      have hl : e.ss.length > 0 := List.length_pos_iff.2 he.ss
      have hll : e.ss.length = e.cuts.length := he.alig.len
      simp only
      rw [if_pos ⟨hl, hll⟩]
      simp only [hb, h1, Option.map_some]
    refine ⟨_, hx, by simp [h2], ?_⟩
    intro i e' hi
    cases i with
    | zero =>
      simp only [List.getElem?_cons_zero, Option.some.injEq] at hi
      subst hi
      cases b with
      | true => exact .inl ⟨rfl, hiff.1 rfl⟩
      | false => exact .inr ⟨rfl, fun hc => by have := hiff.2 hc; cases this⟩
    | succ i =>
      simp only [List.getElem?_cons_succ] at hi ⊢
      exact h3 i e' hi

/-- **C214 is false of the code** for a malformed alignment line. -/
theorem C214_counterexample : ¬ C214_full := by
  intro h
  obtain ⟨r, hr⟩ := h ⟨[], []⟩ [['a']] [['(']]
  have h1 : stringToStringVector ['a'] = [['a']] := StrProc.C15_roundtrip [['a']] (by decide)
  have h2 : stringToStringVector ['('] = [['(']] := StrProc.C15_roundtrip [['(']] (by decide)
  have h3 : extractLoop [['(']] = none := by rw [extractLoop]; rfl
  rw [checkLoop, h1, h2] at hr
  simp [h3] at hr

/-- The hypotheses are met: two segments, reordered. -/
example : Entry.Ok ⟨"X y".toList, [(2, 3), (1, 1)], [1, 2]⟩ := by
  have h1 : stringToStringVector "X y".toList = [['X'], ['y']] := StrProc.C15_roundtrip [['X'], ['y']] (by decide)
  refine ⟨by rw [h1]; decide, by decide, ⟨rfl, by decide, by rw [h1]; decide, ?_⟩, by decide, by decide⟩
  intro i j hi hj hij
  simp only [List.length_cons, List.length_nil] at hi hj
  rintro ⟨k, h2, h3, h4, h5⟩
  match i, j, hi, hj with
  | 0, 0, _, _ => exact hij rfl
  | 1, 1, _, _ => exact hij rfl
  | 0, 1, _, _ => simp at h2 h3 h4 h5; omega
  | 1, 0, _, _ => simp at h2 h3 h4 h5; omega

end Thot.Meta
