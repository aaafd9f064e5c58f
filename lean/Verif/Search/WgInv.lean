import Verif.Search.WgText
import Verif.WordGraph.UsefulProps
import Verif.WordGraph.BuildProps
import Verif.WordGraph.Paths

/-!
The invariant of the construction of a word graph during the search.
-/
namespace Thot.Search
open Thot.StrProc (Str)
open Thot.MultiStack (elems Core SortedOk Outcome push_spec pop_spec empty_iff)
open Thot.AMap (lk)
open Thot.WordGraph (WG Arc Live Path own)

variable {S : Type} [DecidableEq S]

/-- The words on a path. -/
def pathWords (p : List (Nat × Arc)) : List Str := p.flatMap fun e => e.2.words

/-- `p` leads from the initial state to state `i`, its words are the text of `h` and its score, added to the score (with
heuristic) of the empty hypothesis, is the score (with heuristic) of `h`; `i` is final if `h` is complete. -/
structure Spells (m : Mode) (M : Model) (I : Input) (g : WG) (p : List (Nat × Arc)) (i : Nat) (h : Hyp) : Prop where
  path : Path (Live g) WordGraph.initialState p i
  text : plainText m I h.data = some (pathWords p)
  score : (((nullHyp M).score + M.heur nullData : Int) : Rat) + WordGraph.score own p = ((h.score + M.heur h.data : Int) : Rat)
  final : isComplete I.src.length h.data = true → i ∈ g.final ∨ h = nullHyp M

/-- The state of `h` has index `i`. -/
def Idx (D : Dec S) (ms : MultiStack.MS S HypData) (h : Hyp) (i : Nat) : Prop := ∃ sc, lk ms.dict (D.st h.data) = some (i, sc)

/-- Arc `a` with score components `c` stands for the expansion of `p` that produces `q`. -/
structure Stands (o : WgOpts) (m : Mode) (D : Dec S) (M : Model) (I : Input) (ms : MultiStack.MS S HypData) (g : WG) (a : Arc)
    (c : Option (List WordGraph.Score)) (p q : Hyp) : Prop where
  reach : Reach m M I p
  step : ∃ hs, expandMode m M I p = some hs ∧ q ∈ hs
  pred : Idx D ms p a.pred
  succ : Idx D ms q a.succ
  words : ∃ t, plainText m I p.data = some t ∧ plainText m I q.data = some (t ++ a.words)
  score : a.score = (((q.score + M.heur q.data) - (p.score + M.heur p.data) : Int) : Rat)
  comps : c = some (if o.withComps then o.unweighted p.data q.data else [])
  final : isComplete I.src.length q.data = true → a.succ ∈ g.final

/-- Only the empty hypothesis has its state. -/
def NullState (m : Mode) (D : Dec S) (M : Model) (I : Input) : Prop :=
  ∀ h, Reach m M I h → D.st h.data = D.st nullData → h = nullHyp M

/-- Every final state is a state of a complete hypothesis, or satisfies `F`. -/
def FinalsOk (m : Mode) (D : Dec S) (M : Model) (I : Input) (F : Nat → Prop) (ms : MultiStack.MS S HypData) (g : WG) : Prop :=
  ∀ f ∈ g.final, F f ∨ ∃ q, Reach m M I q ∧ isComplete I.src.length q.data = true ∧ Idx D ms q f ∧
    ∃ (i : Nat) (a : Arc), g.arcs[i]? = some a ∧ a.succ = f

structure GInv (o : WgOpts) (m : Mode) (D : Dec S) (M : Model) (I : Input) (F : Nat → Prop) (ms : MultiStack.MS S HypData)
    (g : WG) : Prop where
  wf : WordGraph.WF g
  live : ∀ (i : Nat) (a : Arc), g.arcs[i]? = some a → g.pruned[i]? = some false
  idx : ∀ st i sc, lk ms.dict st = some (i, sc) → i = 0 ∨ i < g.states.length
  hyp : ∀ st i sc, lk ms.dict st = some (i, sc) → ∃ h p, Reach m M I h ∧ D.st h.data = st ∧ Spells m M I g p i h
  stored : ∀ k, ∀ e ∈ elems ms k, ∃ i p, Idx D ms (back D M I.src.length e.2.2) i ∧
    Spells m M I g p i (back D M I.src.length e.2.2)
  arcs : ∀ (i : Nat) (a : Arc), g.arcs[i]? = some a → ∃ p q, Stands o m D M I ms g a g.comps[i]? p q
  final : FinalsOk m D M I F ms g
  init : NullState m D M I → g.arcs ≠ [] → g.init = (((nullHyp M).score + M.heur nullData : Int) : Rat)
  null : ∀ st p, lk ms.dict st = some p → ∃ sc, lk ms.dict (D.st nullData) = some (0, sc)

/-- Indices are kept. -/
def DictLe (ms ms' : MultiStack.MS S HypData) : Prop := ∀ st i sc, lk ms.dict st = some (i, sc) → ∃ sc', lk ms'.dict st = some (i, sc')

theorem DictLe.idx {ms ms' : MultiStack.MS S HypData} (h : DictLe ms ms') {D : Dec S} {x : Hyp} {i : Nat} (hi : Idx D ms x i) :
    Idx D ms' x i := by
  obtain ⟨sc, hsc⟩ := hi
  exact h _ _ _ hsc

theorem DictLe.refl (ms : MultiStack.MS S HypData) : DictLe ms ms := fun _ _ sc h => ⟨sc, h⟩

theorem DictLe.trans {a b c : MultiStack.MS S HypData} (h1 : DictLe a b) (h2 : DictLe b c) : DictLe a c := by
  intro st i sc h
  obtain ⟨sc', h'⟩ := h1 _ _ _ h
  exact h2 _ _ _ h'

/-- Arcs are only added. -/
def WgLe (g g' : WG) : Prop := ∀ i a, Live g i a → Live g' i a

theorem Spells.mono {m : Mode} {M : Model} {I : Input} {g g' : WG} (hle : WgLe g g') (hf : ∀ f ∈ g.final, f ∈ g'.final) {p : List (Nat × Arc)} {i : Nat} {h : Hyp}
    (hs : Spells m M I g p i h) : Spells m M I g' p i h := ⟨hs.path.mono hle, hs.text, hs.score,
    fun h => (hs.final h).imp (hf i) id⟩

/-- What a push does to the dictionary and to the hypotheses stored. -/
theorem decPush_dict {m : Mode} {D : Dec S} {M : Model} {I : Input} {s s' : DState S} (hs : SInv m D M I s) {h : Hyp} {ok : Bool}
    (he : decPush D M I.src.length s h = some (ok, s')) :
    DictLe s.ms s'.ms ∧
    (∀ st i sc, lk s'.ms.dict st = some (i, sc) → (∃ sc', lk s.ms.dict st = some (i, sc')) ∨
      (st = D.st h.data ∧ lk s.ms.dict st = none ∧ i = s.ms.dict.length)) ∧
    (∀ k, ∀ e ∈ elems s'.ms k, e ∈ elems s.ms k ∨ (e.2.2 = stored D M I.src.length h ∧ k = D.cls h.data ∧ ∃ p, lk s'.ms.dict (D.st h.data) = some p)) := by
  have hsame : ∀ {b : Bool} {t : DState S}, t = s → s' = t → DictLe s.ms s'.ms ∧ (∀ st i sc, lk s'.ms.dict st = some (i, sc) → (∃ sc', lk s.ms.dict st = some (i, sc')) ∨
      (st = D.st h.data ∧ lk s.ms.dict st = none ∧ i = s.ms.dict.length)) ∧
    (∀ k, ∀ e ∈ elems s'.ms k, e ∈ elems s.ms k ∨ (e.2.2 = stored D M I.src.length h ∧ k = D.cls h.data ∧ ∃ p, lk s'.ms.dict (D.st h.data) = some p)) := by
    intro _ t h1 h2
    subst h2; subst h1
    exact ⟨DictLe.refl _, fun _ _ sc h => Or.inl ⟨sc, h⟩, fun _ _ h => Or.inl h⟩
  unfold decPush at he
  split at he
  · dsimp only at he
    split at he
    · cases he; exact hsame (b := true) rfl rfl
    · obtain ⟨ok', ms', e1, e2, e3, _, _, ho⟩ := push_spec hs.core hs.sorted (stored D M I.src.length h)
      rw [e1] at he
      cases he
      have hdict : ∀ st, lk ms'.dict st = lk s.ms.dict st ∨ (st = D.st h.data ∧ ∃ sc, lk ms'.dict st = some (MultiStack.idxOf s.ms (D.st h.data), sc)) := by
        intro st
        have hf : ∀ sc, (∀ st, lk ms'.dict st = if st = D.st h.data then some (MultiStack.idxOf s.ms (D.st h.data), sc) else lk s.ms.dict st) →
            lk ms'.dict st = lk s.ms.dict st ∨ (st = D.st h.data ∧ ∃ sc, lk ms'.dict st = some (MultiStack.idxOf s.ms (D.st h.data), sc)) := by
          intro sc hh
          by_cases hst : st = D.st h.data
          · right; refine ⟨hst, sc, ?_⟩; rw [hh, if_pos hst]
          · left; rw [hh, if_neg hst]
        cases ho with
        | worse i sc _ _ _ h1 _ => exact Or.inl (h1 st)
        | full _ _ h1 _ _ _ => exact hf _ h1
        | room _ _ _ _ h1 _ => exact hf _ h1
        | prune t l il sl _ _ _ _ _ _ _ _ h1 _ => exact hf _ h1
      refine ⟨?_, ?_, ?_⟩
      · intro st i sc hl
        rcases hdict st with h1 | ⟨h1, sc', h2⟩
        · exact ⟨sc, by rw [h1]; exact hl⟩
        · subst h1
          rw [MultiStack.lk_dict_idx hl] at h2
          exact ⟨sc', h2⟩
      · intro st i sc hl
        dsimp only at hl
        rcases hdict st with h1 | ⟨h1, sc', h2⟩
        · rw [h1] at hl; exact Or.inl ⟨sc, hl⟩
        · subst h1
          rw [h2] at hl
          cases hl
          cases hn : lk s.ms.dict (D.st h.data) with
          | none =>
            right
            exact ⟨rfl, rfl, by simp [MultiStack.idxOf, hn]⟩
          | some p =>
            left
            obtain ⟨i', s'⟩ := p
            exact ⟨s', by rw [MultiStack.lk_dict_idx hn]⟩
      · intro k e hh
        rcases outcome_mem ho hh with h1 | ⟨h1, h2⟩
        · exact Or.inl h1
        · right
          refine ⟨by rw [h1], h2, ?_⟩
          obtain ⟨_, _, _, p, hp⟩ := e2.el k e hh
          rw [h1] at hp
          exact ⟨p, hp⟩
  · cases he; exact hsame (b := true) rfl rfl

theorem pathWords_snoc (p : List (Nat × Arc)) (i : Nat) (a : Arc) : pathWords (p ++ [(i, a)]) = pathWords p ++ a.words := by
  simp [pathWords]

/-- The graph with the initial score and the final state set is as before, except for these. -/
theorem prepareArc_eq (M : Model) (n : Nat) (i j : Nat) (p q : Hyp) (g : WG) :
    (prepareArc M n i j p q g).arcs = g.arcs ∧ (prepareArc M n i j p q g).pruned = g.pruned ∧
    (prepareArc M n i j p q g).states = g.states ∧ (prepareArc M n i j p q g).comps = g.comps ∧
    (prepareArc M n i j p q g).init = (if i = 0 then ((p.score + M.heur p.data : Int) : Rat) else g.init) ∧
    (∀ f, f ∈ (prepareArc M n i j p q g).final ↔ f ∈ g.final ∨ (f = j ∧ isComplete n q.data = true)) := by
  unfold prepareArc
  dsimp only
  by_cases hi : i = 0 <;> by_cases hc : isComplete n q.data = true <;>
    simp [hi, hc, WordGraph.initialState, WordGraph.setInitialStateScore, WordGraph.addFinalState, WordGraph.mem_setInsert]
  all_goals grind

theorem wf_of_eq {g g' : WG} (hw : WordGraph.WF g) (h1 : g'.arcs = g.arcs) (h2 : g'.pruned = g.pruned)
    (h3 : g'.states = g.states) (h4 : g'.comps = g.comps) : WordGraph.WF g' := by
  refine ⟨?_, ?_, ?_, ?_, ?_, ?_⟩
  · rw [h1, h2]; exact hw.pruned
  · rw [h1, h4]; exact hw.comps
  · rw [h1, h3]; exact hw.pred
  · rw [h1, h3]; exact hw.succ
  · rw [h1, h3]; exact hw.toPred
  · rw [h1, h3]; exact hw.toSucc

/-- An arc is added for every expansion whose states are in the dictionary. -/
theorem putArc_spec {o : WgOpts} {m : Mode} {M : Model} {I : Input} (hI : m = .trans → FromRaw I) {p q : Hyp} {hs : List Hyp}
    (hr : Reach m M I p) (he : expandMode m M I p = some hs) (hm : q ∈ hs) {i j : Nat} {g : WG} (hw : WordGraph.WF g)
    (hij : i < Nat.max g.states.length (j + 1)) :
    ∃ g' t w, putArc o m M I i j p q g = some g' ∧ WordGraph.WF g' ∧ plainText m I p.data = some t ∧
      plainText m I q.data = some (t ++ w) ∧
      g'.arcs = g.arcs ++ [⟨i, j, (((q.score + M.heur q.data) - (p.score + M.heur p.data) : Int) : Rat), w⟩] ∧
      g'.pruned = g.pruned ++ [false] ∧
      g'.comps = g.comps ++ [if o.withComps then o.unweighted p.data q.data else []] ∧
      g'.states.length = Nat.max g.states.length (j + 1) ∧ g'.final = g.final ∧ g'.init = g.init := by
  obtain ⟨t, w, h1, h2, _⟩ := text_step hI hr he hm
  unfold putArc
  rw [h1, h2]
  dsimp only
  rw [List.drop_left]
  cases o.withComps with
  | true =>
    obtain ⟨g', e1, e2, e3, e4, e5, e6, e7, e8, _⟩ := WordGraph.C61_addArcWithScrComps hw i j w
      (((q.score + M.heur q.data) - (p.score + M.heur p.data) : Int) : Rat) (o.unweighted p.data q.data) hij
    exact ⟨g', t, w, by rw [if_pos rfl]; exact e1, e2, rfl, rfl, e3, e4, by rw [if_pos rfl]; exact e5, e6, e7, e8⟩
  | false =>
    obtain ⟨g', e1, e2, e3, e4, e5, e6, e7, e8, _⟩ := (WordGraph.C61_addArc hw i j w
      (((q.score + M.heur q.data) - (p.score + M.heur p.data) : Int) : Rat)).1 hij
    exact ⟨g', t, w, by rw [if_neg (by simp)]; exact e1, e2, rfl, rfl, e3, e4, by rw [if_neg (by simp)]; exact e5, e6, e7, e8⟩

theorem Stands.mono {o : WgOpts} {m : Mode} {D : Dec S} {M : Model} {I : Input} {ms ms' : MultiStack.MS S HypData} {g g' : WG}
    (hd : DictLe ms ms') (hf : ∀ f ∈ g.final, f ∈ g'.final) {a : Arc} {c : Option (List WordGraph.Score)} {p q : Hyp}
    (h : Stands o m D M I ms g a c p q) : Stands o m D M I ms' g' a c p q :=
  ⟨h.reach, h.step, hd.idx h.pred, hd.idx h.succ, h.words, h.score, h.comps, fun hc => hf _ (h.final hc)⟩

/-- A change of the container that keeps the indices and adds no state and no hypothesis. -/
theorem GInv.shrink {o : WgOpts} {m : Mode} {D : Dec S} {M : Model} {I : Input} {F : Nat → Prop}
    {ms ms' : MultiStack.MS S HypData} {g : WG} (hg : GInv o m D M I F ms g) (hd : DictLe ms ms')
    (hb : ∀ st i sc, lk ms'.dict st = some (i, sc) → ∃ sc', lk ms.dict st = some (i, sc'))
    (he : ∀ k, ∀ e ∈ elems ms' k, e ∈ elems ms k) : GInv o m D M I F ms' g where
  wf := hg.wf
  live := hg.live
  idx := fun st i sc h => by obtain ⟨sc', h'⟩ := hb st i sc h; exact hg.idx st i sc' h'
  hyp := fun st i sc h => by obtain ⟨sc', h'⟩ := hb st i sc h; exact hg.hyp st i sc' h'
  stored := fun k e h => by
    obtain ⟨i, p, h1, h2⟩ := hg.stored k e (he k e h)
    exact ⟨i, p, hd.idx h1, h2⟩
  arcs := fun i a h => by
    obtain ⟨p, q, h1⟩ := hg.arcs i a h
    exact ⟨p, q, h1.mono hd fun _ h => h⟩
  final := fun f hf => by
    rcases hg.final f hf with h | ⟨q, h1, h2, h3, h4⟩
    · exact Or.inl h
    · exact Or.inr ⟨q, h1, h2, hd.idx h3, h4⟩
  init := hg.init
  null := fun st p h => by
    obtain ⟨i, sc⟩ := p
    obtain ⟨sc', h'⟩ := hb st i sc h
    obtain ⟨sc2, h2⟩ := hg.null _ _ h'
    exact hd _ _ _ h2

/-- `pushGivenPredHyp`. -/
theorem pushGiven_spec {o : WgOpts} {m : Mode} {D : Dec S} {M : Model} {I : Input} {F : Nat → Prop} (ho : o.enabled = true)
    (hI : m = .trans → FromRaw I) {s s' : DState S} (hs : SInv m D M I s) {g : WG} (hg : GInv o m D M I F s.ms g) {p q : Hyp}
    {es : List Hyp} (hr : Reach m M I p) (he : expandMode m M I p = some es) (hm : q ∈ es)
    {i : Nat} {pp : List (Nat × Arc)} (hpi : Idx D s.ms p i) (hpp : Spells m M I g pp i p) {ok : Bool}
    (hpush : decPush D M I.src.length s q = some (ok, s')) :
    ∃ g', addArcTo o m D M I s'.ms g p q = some g' ∧ GInv o m D M I F s'.ms g' ∧ WgLe g g' ∧ (∀ f ∈ g.final, f ∈ g'.final) ∧
      DictLe s.ms s'.ms := by
  obtain ⟨d1, d2, d3⟩ := decPush_dict hs hpush
  obtain ⟨isc, hi⟩ := d1.idx hpi
  unfold addArcTo
  rw [if_pos ho, hi]
  cases hj : lk s'.ms.dict (D.st q.data) with
  | none =>
    refine ⟨g, rfl, hg.shrink d1 ?_ ?_, fun _ _ h => h, fun _ h => h, d1⟩
    · intro st k sc h
      rcases d2 st k sc h with h1 | ⟨h1, _⟩
      · exact h1
      · rw [h1, hj] at h; cases h
    · intro k e h
      rcases d3 k e h with h1 | ⟨_, _, _, h1⟩
      · exact h1
      · rw [hj] at h1; cases h1
  | some jp =>
    obtain ⟨j, jsc⟩ := jp
    dsimp only
    obtain ⟨a1, a2, a3, a4, a5, a6⟩ := prepareArc_eq M I.src.length i j p q g
    obtain ⟨g0, hg0⟩ : ∃ g0, g0 = prepareArc M I.src.length i j p q g := ⟨_, rfl⟩
    rw [← hg0] at a1 a2 a3 a4 a5 a6 ⊢
    have hi0 : i = 0 ∨ i < g.states.length := by
      obtain ⟨sc, h⟩ := hpi
      exact hg.idx _ _ _ h
    obtain ⟨g', t, w, b1, b2, b3, b4, b5, b6, b7, b8, b9, b10⟩ := putArc_spec (o := o) (i := i) (j := j) hI hr he hm
      (wf_of_eq hg.wf a1 a2 a3 a4) (by rw [a3]; simp only [Nat.max_def]; split <;> omega)
    rw [a1] at b5; rw [a2] at b6; rw [a4] at b7; rw [a3] at b8; rw [a5] at b10
    have hle : WgLe g g' := by
      intro k a ⟨h1, h2⟩
      refine ⟨?_, ?_⟩
      · rw [b5, List.getElem?_append_left (List.getElem?_eq_some_iff.1 h1).1]; exact h1
      · rw [b6, List.getElem?_append_left (List.getElem?_eq_some_iff.1 h2).1]; exact h2
    have hfin : ∀ f ∈ g.final, f ∈ g'.final := fun f hf => by rw [b9]; exact (a6 f).2 (Or.inl hf)
    obtain ⟨na, hna⟩ : ∃ na : Arc, na = ⟨i, j, (((q.score + M.heur q.data) - (p.score + M.heur p.data) : Int) : Rat), w⟩ := ⟨_, rfl⟩
    rw [← hna] at b5
    have hnew : Live g' g.arcs.length na := by
      refine ⟨by rw [b5]; simp, ?_⟩
      rw [b6, ← hg.wf.pruned]; simp
    have hspell : Spells m M I g' (pp ++ [(g.arcs.length, na)]) j q := by
      have hp' := hpp.mono hle hfin
      refine ⟨?_, ?_, ?_, fun hc => Or.inl (by rw [b9]; exact (a6 j).2 (Or.inr ⟨rfl, hc⟩))⟩
      · have := Path.snoc (a := na) (i := g.arcs.length) (P := Live g') (by rw [hna]; exact hp'.path) hnew
        rw [hna] at this ⊢
        exact this
      · rw [pathWords_snoc, b4, hna]
        have h3 := hpp.text
        rw [b3] at h3
        cases h3; rfl
      · rw [WordGraph.score_snoc, ← Rat.add_assoc, hpp.score, hna]
        simp only [own]
        rw [← Rat.intCast_add]
        congr 1
        omega
    refine ⟨g', b1, ?_, hle, hfin, d1⟩
    have hst : ∀ k, k < g.states.length → k < g'.states.length := fun k hk => by
      rw [b8]; exact Nat.lt_of_lt_of_le hk (Nat.le_max_left _ _)
    have hjs : j < g'.states.length := by
      rw [b8]; exact Nat.lt_of_lt_of_le (Nat.lt_succ_self j) (Nat.le_max_right _ _)
    have hjidx : Idx D s'.ms q j := ⟨jsc, hj⟩
    constructor
    · exact b2
    · intro k a h
      rw [b5] at h; rw [b6]
      rcases Nat.lt_or_ge k g.arcs.length with hk | hk
      · rw [List.getElem?_append_left hk] at h
        rw [List.getElem?_append_left (by rw [hg.wf.pruned]; exact hk)]
        exact hg.live k a h
      · have : k = g.arcs.length := by
          have := (List.getElem?_eq_some_iff.1 h).1
          simp at this; omega
        rw [this, ← hg.wf.pruned]; simp
    · intro st k sc h
      rcases d2 st k sc h with ⟨sc', h1⟩ | ⟨h1, _, _⟩
      · rcases hg.idx st k sc' h1 with h2 | h2
        · exact Or.inl h2
        · exact Or.inr (hst k h2)
      · right
        rw [h1, hj] at h
        cases h
        exact hjs
    · intro st k sc h
      rcases d2 st k sc h with ⟨sc', h1⟩ | ⟨h1, _, _⟩
      · obtain ⟨x, px, x1, x2, x3⟩ := hg.hyp st k sc' h1
        exact ⟨x, px, x1, x2, x3.mono hle hfin⟩
      · rw [h1, hj] at h
        cases h
        exact ⟨q, _, .step hr he hm, h1.symm, hspell⟩
    · intro k e h
      rcases d3 k e h with h1 | ⟨h1, _, _⟩
      · obtain ⟨x, px, x1, x2⟩ := hg.stored k e h1
        exact ⟨x, px, d1.idx x1, x2.mono hle hfin⟩
      · rw [h1, back_stored]
        exact ⟨j, _, hjidx, hspell⟩
    · intro k a h
      rw [b5] at h
      rcases Nat.lt_or_ge k g.arcs.length with hk | hk
      · rw [List.getElem?_append_left hk] at h
        obtain ⟨x, y, hxy⟩ := hg.arcs k a h
        refine ⟨x, y, ?_⟩
        rw [b7, List.getElem?_append_left (by rw [hg.wf.comps]; exact hk)]
        exact hxy.mono d1 hfin
      · have hk' : k = g.arcs.length := by
          have := (List.getElem?_eq_some_iff.1 h).1
          simp at this; omega
        subst hk'
        rw [List.getElem?_concat_length] at h
        cases h
        refine ⟨p, q, hr, ⟨es, he, hm⟩, ?_, ?_, ⟨t, b3, by rw [b4, hna]⟩, by rw [hna], ?_, ?_⟩
        · rw [hna]; exact ⟨isc, hi⟩
        · rw [hna]; exact hjidx
        · rw [b7, ← hg.wf.comps]; simp
        · intro hc
          rw [b9, hna]
          exact (a6 j).2 (Or.inr ⟨rfl, hc⟩)
    · intro f hf
      rw [b9] at hf
      rcases (a6 f).1 hf with hf | ⟨hf, hc⟩
      · rcases hg.final f hf with h | ⟨x, h1, h2, h3, n, a, h4, h5⟩
        · exact Or.inl h
        · refine Or.inr ⟨x, h1, h2, d1.idx h3, n, a, ?_, h5⟩
          rw [b5, List.getElem?_append_left (List.getElem?_eq_some_iff.1 h4).1]; exact h4
      · right
        subst hf
        exact ⟨q, .step hr he hm, hc, hjidx, _, na, hnew.1, by rw [hna]⟩
    · intro hn _
      rw [b10]
      split
      · rename_i h0
        have hpn : p = nullHyp M := by
          apply hn p hr
          obtain ⟨sc, hz⟩ := hpi
          obtain ⟨sc', h1⟩ := hg.null _ _ hz
          rw [h0] at hz
          exact hs.core.dinj _ _ _ _ hz h1 rfl
        rw [hpn]; rfl
      · rename_i h0
        refine hg.init hn fun hnil => h0 ?_
        rcases hpp.path.inv with ⟨_, h1⟩ | ⟨k, a, p', _, _, h1, _⟩
        · rw [h1]; rfl
        · have h2 := h1.1
          rw [hnil] at h2; simp at h2
    · intro st x h
      have : ∃ sc, lk s.ms.dict (D.st nullData) = some (0, sc) := by
        obtain ⟨sc, h⟩ := hpi
        exact hg.null _ _ h
      obtain ⟨sc, h⟩ := this
      exact d1 _ _ _ h

end Thot.Search
