import Verif.WgProc.Rep
import Verif.WordGraph.PrevProps

/-!
# C139: the prefixes processed before do not matter
-/

namespace Thot.WgProc

open Thot.WordGraph (WG Arc small Live Path Allowed Topo WF FinalOk)
open Thot.EditDist (Costs PWord prefWords)

/-! ## Specification -/

/-- Two lists of words share their first words: after the words `c` they do not agree at any position, and the words of `c`
mean the same in both (the last word of a prefix may be the beginning of a word). -/
def Share (v w : List Str) : Prop :=
  ∃ c x y : List Str, v = c ++ x ∧ w = c ++ y ∧ (∀ (i : Nat) (a : Str), x[i]? = some a → y[i]? ≠ some a) ∧
    (prefWords v).take c.length = (prefWords w).take c.length

/-- The calls made with the prefixes `ps`, last one first. -/
inductive Calls (g : WG) (P : Par) : List Str → Option PS → Prop
  | fresh : Calls g P [] none
  | call {ps : List Str} {st : Option PS} {p : Str} {n : Nat} {rej : List (Str × Str)} {r : List (Score × List Str)} {st' : PS} :
    Calls g P ps st → correct g P p n rej st = some (r, st') → Calls g P (p :: ps) (some st')

/-- Each prefix of the list (last one first) shares its first words with the one before. -/
def Steps : List Str → Prop
  | p :: q :: l => (∀ v w, prefVecOf p = some v → prefVecOf q = some w → Share w v) ∧ Steps (q :: l)
  | _ => True

/-- Every arc can be reached from the initial state, and there is one. -/
def Reached (g : WG) : Prop := (∃ i a, Live g i a) ∧ ∀ i a, Live g i a → ∃ p, Path (Live g) 0 p a.pred

/-- The full claim: the suggestions for a prefix do not depend on the prefixes processed before. -/
def C139_full : Prop :=
  ∀ (g : WG) (P : Par), Topo g → WF g → FinalOk g → Reached g → WordsOk g → ∀ (ps : List Str) (st : Option PS), Calls g P ps st →
    ∀ (p : Str) (n : Nat) (rej : List (Str × Str)),
      (correct g P p n rej st).map Prod.fst = (correct g P p n rej none).map Prod.fst

/-! ## Proofs -/

theorem conn_of {g : WG} (ht : Topo g) (hr : Reached g) : Conn g := by
  constructor
  · intro i a ha
    obtain ⟨p, hp⟩ := hr.2 i a ha
    rcases WordGraph.nil_or_snoc p with rfl | ⟨q, ⟨j, b⟩, rfl⟩
    · have : a.pred = 0 := hp.nil_eq
      rw [this]; exact fed_mono (Nat.zero_le _) (by simp [fed])
    · obtain ⟨u, -, h2⟩ := WordGraph.Path.split hp
      rcases h2.inv with ⟨h, -⟩ | ⟨j', b', q', h, rfl, hb, hp5⟩
      · simp at h
      · simp at h
        obtain ⟨⟨rfl, rfl⟩, rfl⟩ := h
        have hs := hp5.nil_eq
        have hlt : j < i := by
          rcases Nat.lt_or_ge j i with h | h
          · exact h
          · exact absurd hs.symm (ht i j a b ha.1 hb.1 h)
        rw [hs]
        exact fed_mono hlt (fed_succ hb)
  · intro i a ha
    obtain ⟨p, hp⟩ := hr.2 i a ha
    exact WordGraph.no_cycle ht (fun _ _ h => h.1) hp ha

theorem validPref_nil : ∀ (x y : List Str), (∀ (i : Nat) (a : Str), x[i]? = some a → y[i]? ≠ some a) → validPref x y = [] := by
  intro x
  induction x with
  | nil => intro y _; simp [validPref]
  | cons a x ih =>
    intro y h
    cases y with
    | nil => simp [validPref]
    | cons b y =>
      have h0 := h 0 a (by simp)
      simp only [validPref]
      rw [if_neg (by intro hab; apply h0; simp [hab])]
      exact ih y fun i c hc => by have := h (i + 1) c (by simpa using hc); simpa using this

theorem validPref_share (c x y : List Str) (h : ∀ (i : Nat) (a : Str), x[i]? = some a → y[i]? ≠ some a) : validPref (c ++ x) (c ++ y) = c := by
  induction c with
  | nil => exact validPref_nil x y h
  | cons a c ih => simp [validPref, ih]

theorem prefWords_length (q : List Str) : (prefWords q).length = q.length := by
  unfold prefWords
  cases hq : q.getLast? with
  | none => simp [List.getLast?_eq_none_iff.1 hq]
  | some l =>
    have : q ≠ [] := by rintro rfl; simp at hq
    have := List.length_pos_iff.2 this
    simp only
    split <;> simp only [List.length_append, List.length_map, List.length_dropLast, List.length_cons, List.length_nil] <;> omega

theorem prefWords_append (c y : List Str) (hy : y ≠ []) : prefWords (c ++ y) = c.map .full ++ prefWords y := by
  unfold prefWords
  obtain ⟨l, hl⟩ : ∃ l, y.getLast? = some l := by
    cases h : y.getLast? with
    | none => exact absurd (List.getLast?_eq_none_iff.1 h) hy
    | some l => exact ⟨l, rfl⟩
  have h1 : (c ++ y).getLast? = some l := by rw [List.getLast?_append, hl]; rfl
  rw [h1, hl, List.dropLast_append_of_ne_nil hy]
  simp only [List.map_append, List.append_assoc]
  split <;> rfl

/-- The words of a prefix as functions. -/
def rawOf (q : List Str) (j : Nat) : Str := q.getD j []
def meanOf (q : List Str) (j : Nat) : PWord := (prefWords q).getD j (.full [])

/-- The state for the prefix `q`. -/
def stateFor (g : WG) (P : Par) (rest : List Score) (q : List Str) : PS :=
  rep g P (rawOf q) (meanOf q) q rest (q.length + 1)

theorem process_ok {g : WG} {P : Par} (ht : Topo g) (hw : WF g) (hr : Reached g) {inv : List Nat}
    (hi : involved g (List.range g.arcs.length) [] = some inv) {rest : List Score} {p q : List Str} (hs : Share p q) :
    process g P inv q (stateFor g P rest p) = some (stateFor g P rest q) := by
  have hc := conn_of ht hr
  obtain ⟨c, x, y, rfl, rfl, hne, htk⟩ := hs
  unfold process
  have hpv : (stateFor g P rest (c ++ x)).prefVec = c ++ x := rfl
  rw [hpv, validPref_share c x y hne]
  have hsh : shrink inv ((c ++ x).length - c.length) (stateFor g P rest (c ++ x)) =
      some (rep g P (rawOf (c ++ x)) (meanOf (c ++ x)) (c ++ x) rest (c.length + 1)) := by
    unfold stateFor
    rw [show (c ++ x).length + 1 = (c.length + 1) + ((c ++ x).length - c.length) by simp; omega]
    exact shrink_ok hc hr.1 hi (by omega)
  rw [hsh]
  have hraw : ∀ i < c.length, rawOf (c ++ x) i = rawOf (c ++ y) i := by
    intro i h
    simp only [rawOf, List.getD_eq_getElem?_getD, List.getElem?_append_left h]
  have hmean : ∀ i < c.length, meanOf (c ++ x) i = meanOf (c ++ y) i := by
    intro i h
    have e1 : (prefWords (c ++ x))[i]? = ((prefWords (c ++ x)).take c.length)[i]? := by rw [List.getElem?_take, if_pos h]
    have e2 : (prefWords (c ++ y))[i]? = ((prefWords (c ++ y)).take c.length)[i]? := by rw [List.getElem?_take, if_pos h]
    simp only [meanOf, List.getD_eq_getElem?_getD, e1, e2, htk]
  rw [rep_congr hraw hmean]
  have hpv2 : (rep g P (rawOf (c ++ y)) (meanOf (c ++ y)) (c ++ x) rest (c.length + 1)).prefVec = c ++ x := rfl
  simp only [hpv2, validPref_share c x y hne, prefDiff, List.drop_left]
  rw [procDiff_ok ht hw hc (d := y) (m := c.length)]
  · simp [stateFor, rep]
  · intro t h
    simp only [rawOf, List.getD_eq_getElem?_getD]
    rw [List.getElem?_append_right (by omega), Nat.add_sub_cancel_left, List.getElem?_eq_getElem h]; rfl
  · intro t h
    have hy : y ≠ [] := by rintro rfl; simp at h
    have hlen := prefWords_length y
    simp only [meanOf, List.getD_eq_getElem?_getD, prefWords_append c y hy]
    rw [List.getElem?_append_right (by simp), List.length_map, Nat.add_sub_cancel_left,
      List.getElem?_eq_getElem (by omega)]; rfl

theorem share_nil (q : List Str) : Share [] q := ⟨[], [], q, rfl, rfl, by simp, by simp⟩

theorem initVars_state {g : WG} {P : Par} (ht : Topo g) (hw : WF g) (hr : Reached g) {st : PS} (h : initVars g P = some st) :
    ∃ rest, WordGraph.calcRestScores g = some rest ∧ st = stateFor g P rest [] := by
  cases hrs : WordGraph.calcRestScores g with
  | none => rw [initVars, hrs] at h; cases h
  | some rest =>
    refine ⟨rest, rfl, ?_⟩
    rw [initVars_ok (raw := rawOf []) (Y := meanOf []) ht hw (conn_of ht hr) hrs] at h
    cases h; rfl

/-- The state after a session. -/
theorem calls_state {g : WG} {P : Par} (ht : Topo g) (hw : WF g) (hr : Reached g) {ps : List Str} {st : Option PS}
    (h : Calls g P ps st) : Steps ps → ∀ s, st = some s → ∃ rest p l v, WordGraph.calcRestScores g = some rest ∧
      ps = p :: l ∧ prefVecOf p = some v ∧ s = stateFor g P rest v := by
  induction h with
  | fresh => intro _ s h; cases h
  | @call ps st p n rej r st' hh hc ih =>
    intro hs s he; cases he
    unfold correct at hc
    simp only [Option.bind_eq_bind, Option.bind_eq_some_iff, Option.some.injEq, Prod.mk.injEq] at hc
    obtain ⟨st0, h0, inv, hi, q, hq, st1, h1, r', -, rfl, rfl⟩ := hc
    have key : ∃ rest v, WordGraph.calcRestScores g = some rest ∧ st0 = stateFor g P rest v ∧ Share v q := by
      cases hst : st with
      | none =>
        rw [hst] at h0
        obtain ⟨rest, h2, h3⟩ := initVars_state ht hw hr h0
        exact ⟨rest, [], h2, h3, share_nil q⟩
      | some s0 =>
        rw [hst] at h0; cases h0
        cases ps with
        | nil => rw [hst] at hh; cases hh
        | cons p' l =>
          obtain ⟨rest, p'', l', v, h2, h3, h4, h5⟩ := ih hs.2 _ hst
          cases h3
          exact ⟨rest, v, h2, h5, hs.1 _ _ hq h4⟩
    obtain ⟨rest, v, h2, rfl, h4⟩ := key
    rw [process_ok ht hw hr hi h4] at h1
    cases h1
    exact ⟨rest, p, ps, q, h2, rfl, hq, rfl⟩

/-- **C139 (part).** When each prefix shares its first words with the one before, and these mean the same in both, the
suggestions for a prefix are those of a processor that has just been created. -/
theorem C139_history_independent_partial {g : WG} {P : Par} (ht : Topo g) (hw : WF g) (hr : Reached g) {ps : List Str}
    {st : Option PS} (h : Calls g P ps st) {p : Str} (hs : Steps (p :: ps)) (n : Nat) (rej : List (Str × Str)) :
    correct g P p n rej st = correct g P p n rej none := by
  cases hst : st with
  | none => rfl
  | some s =>
    have hsp : Steps ps := by cases ps with | nil => trivial | cons q l => exact hs.2
    obtain ⟨rest, q, l, v, h2, rfl, h4, rfl⟩ := calls_state ht hw hr h hsp s hst
    unfold correct
    have hin : initVars g P = some (stateFor g P rest []) := initVars_ok ht hw (conn_of ht hr) h2
    simp only [startState, hin, Option.bind_eq_bind, Option.bind_some]
    cases hi : involved g (List.range g.arcs.length) [] with
    | none => rfl
    | some inv =>
      cases hq : prefVecOf p with
      | none => rfl
      | some q' => simp only [Option.bind_some, process_ok ht hw hr hi (hs.1 _ _ hq h4), process_ok ht hw hr hi (share_nil q')]

/-! ## The claim is false of all histories -/

/-- A graph built by calls, from its arcs and its final states. -/
def graphOf (l : List (Nat × Nat × List Str × Score)) (f : List Nat) : WG :=
  f.foldl WordGraph.addFinalState
    ((l.foldl (fun g e => g.bind fun g => WordGraph.addArc g e.1 e.2.1 e.2.2.1 e.2.2.2) (some WordGraph.new)).getD WordGraph.new)

def exG : WG := graphOf [(0, 1, ["a".toList], -1), (1, 2, ["b".toList], -1), (1, 2, ["xx".toList], -3), (2, 3, ["c".toList], -1),
  (3, 4, ["d".toList], -1)] [4]

def exP : Par := ⟨⟨0, 1, 1, 1⟩, 1, 1⟩

theorem exG_topo : Topo exG := WordGraph.topo_of (by decide +kernel)
theorem exG_wf : WF exG := by apply WordGraph.wf_of <;> decide +kernel
theorem exG_final : FinalOk exG := by unfold FinalOk; decide +kernel
theorem exG_words : WordsOk exG := by unfold WordsOk; decide +kernel

theorem exG_arcs : exG.arcs = [⟨0, 1, -1, ["a".toList]⟩, ⟨1, 2, -1, ["b".toList]⟩, ⟨1, 2, -3, ["xx".toList]⟩, ⟨2, 3, -1, ["c".toList]⟩,
    ⟨3, 4, -1, ["d".toList]⟩] := by decide +kernel
theorem exG_pruned : exG.pruned = [false, false, false, false, false] := by decide +kernel

theorem exG_reached : Reached exG := by
  refine ⟨⟨0, ⟨0, 1, -1, ["a".toList]⟩, by decide +kernel, by decide +kernel⟩, ?_⟩
  have l0 : Live exG 0 ⟨0, 1, -1, ["a".toList]⟩ := ⟨by decide +kernel, by decide +kernel⟩
  have l1 : Live exG 1 ⟨1, 2, -1, ["b".toList]⟩ := ⟨by decide +kernel, by decide +kernel⟩
  have l3 : Live exG 3 ⟨2, 3, -1, ["c".toList]⟩ := ⟨by decide +kernel, by decide +kernel⟩
  intro i a h
  have hm : a ∈ exG.arcs := List.mem_of_getElem? h.1
  rw [exG_arcs] at hm
  simp only [List.mem_cons, List.not_mem_nil, or_false] at hm
  rcases hm with rfl | rfl | rfl | rfl | rfl
  · exact ⟨_, .nil 0⟩
  · exact ⟨_, .cons (a := ⟨0, 1, -1, ["a".toList]⟩) l0 (.nil 1)⟩
  · exact ⟨_, .cons (a := ⟨0, 1, -1, ["a".toList]⟩) l0 (.nil 1)⟩
  · exact ⟨_, .cons (a := ⟨0, 1, -1, ["a".toList]⟩) l0 (.cons (a := ⟨1, 2, -1, ["b".toList]⟩) l1 (.nil 2))⟩
  · exact ⟨_, .cons (a := ⟨0, 1, -1, ["a".toList]⟩) l0 (.cons (a := ⟨1, 2, -1, ["b".toList]⟩) l1
      (.cons (a := ⟨2, 3, -1, ["c".toList]⟩) l3 (.nil 3)))⟩

/-- The suggestions of the second of two calls. -/
def second (p q : String) (n : Nat) : Option (List (Score × List Str)) :=
  (correct exG exP p.toList n [] none).bind fun r => (correct exG exP q.toList n [] (some r.2)).map Prod.fst

/-- The suggestions of a first call. -/
def first (q : String) (n : Nat) : Option (List (Score × List Str)) :=
  (correct exG exP q.toList n [] none).map Prod.fst

example : first "a xx c" 2 = some [(-7, ["a", "xx", "c", "b", "c", "d"].map String.toList),
    (-7, ["a", "xx", "c", "c", "d"].map String.toList)] := by decide +kernel
example : second "a b c" "a xx c" 2 = some [(-5, ["a", "xx", "c", "c", "d"].map String.toList),
    (-6, ["a", "xx", "c", "b", "c", "d"].map String.toList)] := by decide +kernel

/-- `getValidProcPrefixVec` does not stop at the first word that differs: after `a b c`, the prefix `a xx c` takes the words
`a` and `c` for two words that were processed already, and only `c` is processed again, after the columns of `a b`. -/
theorem C139_counterexample : ¬ C139_full := by
  intro h
  have h0 : (correct exG exP "a b c".toList 2 [] none).isSome = true := by decide +kernel
  obtain ⟨⟨r, st⟩, h1⟩ := Option.isSome_iff_exists.1 h0
  have h2 := h exG exP exG_topo exG_wf exG_final exG_reached exG_words _ _ (.call .fresh h1) "a xx c".toList 2 []
  have h3 : second "a b c" "a xx c" 2 ≠ first "a xx c" 2 := by decide +kernel
  apply h3
  unfold second first
  rw [h1]
  exact h2

/-! ## The hypotheses hold -/

theorem share_of {v w c x y : List Str} (h1 : v = c ++ x) (h2 : w = c ++ y)
    (h3 : ∀ i ∈ List.range x.length, x[i]? ≠ y[i]?)
    (h4 : (prefWords v).take c.length = (prefWords w).take c.length) : Share v w :=
  ⟨c, x, y, h1, h2, fun i _ h h' => h3 i (List.mem_range.2 (List.getElem?_eq_some_iff.1 h).1) (h.trans h'.symm), h4⟩

/-- The user types `a`, accepts `a b ` and changes it to `a xx c`. -/
theorem exSteps : Steps ["a xx c".toList, "a b ".toList, "a ".toList] := by
  refine ⟨?_, ?_, trivial⟩
  · intro v w hv hw
    obtain rfl : ["a".toList, "xx".toList, "c".toList] = v := Option.some.inj (Eq.trans (by decide +kernel) hv)
    obtain rfl : ["a".toList, "b ".toList] = w := Option.some.inj (Eq.trans (by decide +kernel) hw)
    exact share_of (c := ["a".toList]) (x := ["b ".toList]) (y := ["xx".toList, "c".toList]) rfl rfl (by decide +kernel) rfl
  · intro v w hv hw
    obtain rfl : ["a".toList, "b ".toList] = v := Option.some.inj (Eq.trans (by decide +kernel) hv)
    obtain rfl : ["a ".toList] = w := Option.some.inj (Eq.trans (by decide +kernel) hw)
    exact share_of (c := []) (x := ["a ".toList]) (y := ["a".toList, "b ".toList]) rfl rfl (by decide +kernel) rfl

/-- The three calls are defined, so that the theorem applies to the third one. -/
example : ∃ st, Calls exG exP ["a b ".toList, "a ".toList] st ∧
    correct exG exP "a xx c".toList 2 [] st = correct exG exP "a xx c".toList 2 [] none := by
  have h0 : ((correct exG exP "a ".toList 2 [] none).bind fun r => correct exG exP "a b ".toList 2 [] (some r.2)).isSome = true := by
    decide +kernel
  obtain ⟨⟨r, st⟩, h1⟩ := Option.isSome_iff_exists.1 h0
  obtain ⟨⟨r1, st1⟩, h2, h3⟩ := Option.bind_eq_some_iff.1 h1
  have hc : Calls exG exP ["a b ".toList, "a ".toList] (some st) := .call (.call .fresh h2) h3
  exact ⟨_, hc, C139_history_independent_partial exG_topo exG_wf exG_reached hc exSteps 2 []⟩

/-- C137 and C141: the suggestions for `a b`, when the user does not want `c` next. -/
example : (correct exG exP "a b".toList 3 [([], "c".toList)] none).map Prod.fst =
    some [(-5, ["a", "b", "b", "c", "d"].map String.toList), (-6, ["a", "b", "a", "b", "c", "d"].map String.toList),
      (-7, ["a", "b", "d"].map String.toList)] := by decide +kernel

end Thot.WgProc
