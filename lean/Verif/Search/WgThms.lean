import Verif.Search.WgProps
import Verif.Search.Order

/-!
Property C93: the word graph built by the search.
-/
namespace Thot.Search
open Thot.StrProc (Str)
open Thot.AMap (lk)
open Thot.WordGraph (WG Arc Live Path own)

variable {S : Type} [DecidableEq S]

/-! ### Specification -/

/-- A translation and any number of calls to `getNextTrans`, with the word graph. -/
inductive WSession (o : WgOpts) (m : Mode) (D : Dec S) (M : Model) (I : Input) (ms : MultiStack.MS S HypData) (g : WG) :
    Loop S → WG → Prop where
  | first {L : Loop S} {g1 : WG} : translateW o m D M I ms g = some (L, g1) → WSession o m D M I ms g L g1
  | next {L L' : Loop S} {g1 g2 : WG} : WSession o m D M I ms g L g1 → nextTransW o m D M I L.s g1 = some (L', g2) →
      WSession o m D M I ms g L' g2

/-- Contract of the recombination states: hypotheses with the same state have the same completions, with the same words and
scores, and the same heuristic. -/
structure WgContract (m : Mode) (D : Dec S) (M : Model) (I : Input) : Prop where
  null : NullState m D M I
  complete : ∀ h g, Reach m M I h → Reach m M I g → D.st h.data = D.st g.data →
    isComplete I.src.length h.data = isComplete I.src.length g.data
  heur : ∀ h g, Reach m M I h → Reach m M I g → D.st h.data = D.st g.data → M.heur h.data = M.heur g.data
  step : ∀ h g hs h', Reach m M I h → Reach m M I g → D.st h.data = D.st g.data → expandMode m M I h = some hs → h' ∈ hs →
    ∃ gs g', expandMode m M I g = some gs ∧ g' ∈ gs ∧ D.st h'.data = D.st g'.data ∧
      h'.score - h.score = g'.score - g.score ∧
      ∀ t w, plainText m I h.data = some t → plainText m I h'.data = some (t ++ w) →
        ∀ t', plainText m I g.data = some t' → plainText m I g'.data = some (t' ++ w)

/-! ### Sessions -/

theorem nextTransW_spec {o : WgOpts} {m : Mode} {D : Dec S} {M : Model} {I : Input} (ho : o.enabled = true)
    (hI : m = .trans → FromRaw I) (hl : lengthsOk m I = true) {F : Nat → Prop} {L : Loop S} {g : WG}
    (h : WFinal o m D M I F L g) : ∃ L' g', nextTransW o m D M I L.s g = some (L', g') ∧ nextTrans m D M I L.s = some L' ∧
      WFinal o m D M I F L' g' ∧ Grows L.s.ms L'.s.ms g g' := by
  obtain ⟨L', g', f1, f2, f3, f4⟩ := decLoopW_spec (o := o) (F := F) ho hI (safe_of (M := M) hI hl) (D.maxIter - 1)
    (L := ⟨false, nullHyp M, { L.s with best := D.worst }⟩) (g := g)
    ⟨⟨⟨h.s.core, h.s.sorted, h.s.el⟩, .null, fun h => (by cases h), fun _ _ => rfl⟩, h.gi, Or.inl rfl⟩
  exact ⟨L', g', f1, f2, f3, f4⟩

theorem wsession_spec {o : WgOpts} {m : Mode} {D : Dec S} {M : Model} {I : Input} (ho : o.enabled = true)
    (hI : m = .trans → FromRaw I) (hl : lengthsOk m I = true) {ms : MultiStack.MS S HypData} {g : WG} {L : Loop S} {g1 : WG}
    (h : WSession o m D M I ms g L g1) :
    WFinal o m D M I (Extra o m D M I ms g) L g1 ∧ Session m D M I ms L ∧
      ∀ L0 g0, translateW o m D M I ms g = some (L0, g0) → Grows L0.s.ms L.s.ms g0 g1 := by
  induction h with
  | first h =>
    obtain ⟨L', g', e1, e2, e3, _⟩ := translateW_spec (D := D) (M := M) ho hI ms g
    rw [h] at e1; cases e1
    exact ⟨e3, .first e2, fun L0 g0 h0 => by rw [h] at h0; cases h0; exact Grows.refl _ _⟩
  | next _ h2 ih =>
    obtain ⟨i1, i2, i3⟩ := ih
    obtain ⟨L', g', e1, e2, e3, e4⟩ := nextTransW_spec ho hI hl i1
    rw [h2] at e1; cases e1
    exact ⟨e3, .next i2 e2, fun L0 g0 h0 => (i3 L0 g0 h0).trans e4⟩

/-! ### Theorems -/

/-- Building the word graph never writes out of bounds nor changes the search. -/
theorem C93_defined {o : WgOpts} {m : Mode} {D : Dec S} {M : Model} {I : Input} (ho : o.enabled = true)
    (hI : m = .trans → FromRaw I) (hl : lengthsOk m I = true) (ms : MultiStack.MS S HypData) (g : WG) :
    (∃ L g', translateW o m D M I ms g = some (L, g') ∧ translate m D M I ms = some L) ∧
    ∀ L g', WSession o m D M I ms g L g' → WordGraph.WF g' ∧
      ∃ L2 g2, nextTransW o m D M I L.s g' = some (L2, g2) ∧ nextTrans m D M I L.s = some L2 := by
  refine ⟨?_, fun L g' h => ?_⟩
  · obtain ⟨L, g', e1, e2, _⟩ := translateW_spec (D := D) (M := M) ho hI ms g
    exact ⟨L, g', e1, e2⟩
  · obtain ⟨h1, _, _⟩ := wsession_spec ho hI hl h
    obtain ⟨L2, g2, e1, e2, _⟩ := nextTransW_spec ho hI hl h1
    exact ⟨h1.gi.wf, L2, g2, e1, e2⟩

/-- Every arc of the word graph stands for the expansion of a hypothesis: it leads from the state of the hypothesis to the
state of the extended hypothesis, with the words added, the score added (with heuristics), and the unweighted score
components if they were asked for; its end is final if the extended hypothesis is complete. -/
theorem C93_arcs {o : WgOpts} {m : Mode} {D : Dec S} {M : Model} {I : Input} (ho : o.enabled = true)
    (hI : m = .trans → FromRaw I) (hl : lengthsOk m I = true) {ms : MultiStack.MS S HypData} {g : WG} {L : Loop S} {g1 : WG}
    (h : WSession o m D M I ms g L g1) (i : Nat) (a : Arc) (ha : g1.arcs[i]? = some a) :
    ∃ p q hs, Reach m M I p ∧ expandMode m M I p = some hs ∧ q ∈ hs ∧
      (∃ sc, lk L.s.ms.dict (D.st p.data) = some (a.pred, sc)) ∧ (∃ sc, lk L.s.ms.dict (D.st q.data) = some (a.succ, sc)) ∧
      (∃ t, plainText m I p.data = some t ∧ plainText m I q.data = some (t ++ a.words)) ∧
      a.score = (((q.score + M.heur q.data) - (p.score + M.heur p.data) : Int) : Rat) ∧
      g1.comps[i]? = some (if o.withComps then o.unweighted p.data q.data else []) ∧
      g1.pruned[i]? = some false ∧
      (isComplete I.src.length q.data = true → a.succ ∈ g1.final) := by
  obtain ⟨h1, _, _⟩ := wsession_spec ho hI hl h
  obtain ⟨p, q, r⟩ := h1.gi.arcs i a ha
  obtain ⟨hs, s1, s2⟩ := r.step
  exact ⟨p, q, hs, r.reach, s1, s2, r.pred, r.succ, r.words, r.score, r.comps, h1.gi.live i a ha, r.final⟩

/-- Different states have different indices. -/
theorem C93_states {o : WgOpts} {m : Mode} {D : Dec S} {M : Model} {I : Input} (ho : o.enabled = true)
    (hI : m = .trans → FromRaw I) (hl : lengthsOk m I = true) {ms : MultiStack.MS S HypData} {g : WG} {L : Loop S} {g1 : WG}
    (h : WSession o m D M I ms g L g1) {st st' : S} {i : Nat} {sc sc' : Int} (h1 : lk L.s.ms.dict st = some (i, sc))
    (h2 : lk L.s.ms.dict st' = some (i, sc')) : st = st' := by
  obtain ⟨k, _, _⟩ := wsession_spec ho hI hl h
  exact k.s.core.dinj _ _ _ _ h1 h2 rfl

theorem null_incomplete' {m : Mode} {I : Input} (M : Model) (hl : lengthsOk m I = true) {h : Hyp}
    (hc : isComplete I.src.length h.data = true) : h ≠ nullHyp M := by
  rintro rfl
  exact null_incomplete hl hc

theorem path_ne {g : WG} {p : List (Nat × Arc)} {i : Nat} (hp : Path (Live g) 0 p i) (hne : p ≠ []) : g.arcs ≠ [] := by
  intro he
  rcases hp.inv with ⟨h1, _⟩ | ⟨k, a, p', _, _, h1, _⟩
  · exact hne h1
  · have := h1.1
    rw [he] at this; simp at this

/-- The word graph contains every translation returned: a path from the initial state to a final state has its words, and
the initial score plus the score of the path is the score of the translation (with the heuristic, usually 0 for complete
translations). -/
theorem C93_translation {o : WgOpts} {m : Mode} {D : Dec S} {M : Model} {I : Input} (ho : o.enabled = true)
    (hI : m = .trans → FromRaw I) (hl : lengthsOk m I = true) (hN : NullState m D M I) {ms : MultiStack.MS S HypData} {g : WG}
    {L : Loop S} {g1 : WG} (h : WSession o m D M I ms g L g1) (hc : isComplete I.src.length L.result.data = true) :
    ∃ f p, f ∈ g1.final ∧ Path (Live g1) WordGraph.initialState p f ∧ plainText m I L.result.data = some (pathWords p) ∧
      g1.init + WordGraph.score own p = ((L.result.score + M.heur L.result.data : Int) : Rat) := by
  obtain ⟨h1, _, _⟩ := wsession_spec ho hI hl h
  have hnn := null_incomplete' M hl hc
  rcases h1.res with h2 | ⟨i, p, hi, h3⟩
  · exact absurd h2 hnn
  · have hf := (h3.final hc).resolve_right hnn
    refine ⟨i, p, hf, h3.path, h3.text, ?_⟩
    rw [h1.gi.init hN ?_, h3.score]
    refine path_ne h3.path ?_
    rintro rfl
    have h0 : i = 0 := (h3.path.inv.resolve_right (by rintro ⟨_, _, p', h, _⟩; cases h)).2
    subst h0
    obtain ⟨sc, hi⟩ := hi
    obtain ⟨sc', h4⟩ := h1.gi.null _ _ hi
    exact hnn (hN _ h1.reach (h1.s.core.dinj _ _ _ _ hi h4 rfl))

/-- So it does with an incomplete result of `translate`. -/
theorem C93_incomplete {o : WgOpts} {D : Dec S} {M : Model} {I : Input} (ho : o.enabled = true)
    (hI : FromRaw I) (hl : lengthsOk .trans I = true) (hN : NullState .trans D M I) {ms : MultiStack.MS S HypData} {g : WG}
    {L : Loop S} {g1 : WG} (h : translateW o .trans D M I ms g = some (L, g1))
    (hc : isComplete I.src.length L.result.data = false) :
    ∃ f p, f ∈ g1.final ∧ Path (Live g1) WordGraph.initialState p f ∧ plainText .trans I L.result.data = some (pathWords p) ∧
      (p = [] ∧ L.result = nullHyp M ∨
        g1.init + WordGraph.score own p = ((L.result.score + M.heur L.result.data : Int) : Rat)) := by
  obtain ⟨L', g', e1, e2, e3, e4⟩ := translateW_spec (D := D) (M := M) ho (fun _ => hI) ms g
  rw [h] at e1; cases e1
  obtain ⟨f, hf, h1⟩ := e4 hl rfl hc
  rcases e3.res with h2 | ⟨i, p, hi, h3⟩
  · have h0 : f = 0 := by
      rcases h1 with ⟨sc, h1⟩ | ⟨h1, _⟩
      · obtain ⟨sc', h4⟩ := e3.gi.null _ _ h1
        rw [h2] at h1
        have := h1.symm.trans h4
        cases this; rfl
      · exact h1
    subst h0
    refine ⟨0, [], hf, .nil _, ?_, Or.inl ⟨rfl, h2⟩⟩
    rw [h2]
    exact (spells_null (m := .trans) (M := M) (fun _ => hI) g1).text
  · have hfi : f = i := by
      obtain ⟨sc, hi'⟩ := hi
      rcases h1 with ⟨sc', h1⟩ | ⟨_, h1⟩
      · rw [hi'] at h1; cases h1; rfl
      · exact absurd ⟨sc, hi'⟩ (h1 i)
    subst hfi
    refine ⟨f, p, hf, h3.path, h3.text, ?_⟩
    by_cases hp : p = []
    · left
      subst hp
      have h0 : f = 0 := (h3.path.inv.resolve_right (by rintro ⟨_, _, p', h, _⟩; cases h)).2
      subst h0
      obtain ⟨sc, hi⟩ := hi
      obtain ⟨sc', h4⟩ := e3.gi.null _ _ hi
      exact ⟨rfl, hN _ e3.reach (e3.s.core.dinj _ _ _ _ hi h4 rfl)⟩
    · right
      rw [e3.gi.init hN (path_ne h3.path hp), h3.score]

/-- A path that starts in the state of a hypothesis spells extensions of the hypothesis. -/
theorem path_ext {o : WgOpts} {m : Mode} {D : Dec S} {M : Model} {I : Input} (hct : WgContract m D M I) {F : Nat → Prop}
    {L : Loop S} {g : WG} (hf : WFinal o m D M I F L g) : ∀ (p : List (Nat × Arc)) {s t : Nat} {h : Hyp},
    Path (Live g) s p t → Reach m M I h → Idx D L.s.ms h s → ∀ w0, plainText m I h.data = some w0 →
    ∃ h', Ext m M I h h' ∧ Idx D L.s.ms h' t ∧ plainText m I h'.data = some (w0 ++ pathWords p) ∧
      ((h.score + M.heur h.data : Int) : Rat) + WordGraph.score own p = ((h'.score + M.heur h'.data : Int) : Rat)
  | [], s, t, h, hp, hr, hi, w0, hw => by
    have h0 : t = s := (hp.inv.resolve_right (by rintro ⟨_, _, p', h, _⟩; cases h)).2
    subst h0
    exact ⟨h, .refl, hi, by rw [hw]; simp [pathWords], by simp only [WordGraph.score, Rat.add_zero]⟩
  | e :: p, s, t, h, hp, hr, hi, w0, hw => by
    obtain ⟨k, a, p', he, hs, hl, hp'⟩ := hp.inv.resolve_left (by rintro ⟨h, _⟩; cases h)
    cases he
    obtain ⟨x, y, st⟩ := hf.gi.arcs k a hl.1
    obtain ⟨xs, s1, s2⟩ := st.step
    subst hs
    obtain ⟨sc, hi⟩ := hi
    obtain ⟨sc', hx⟩ := st.pred
    have hst : D.st x.data = D.st h.data := hf.s.core.dinj _ _ _ _ hx hi rfl
    obtain ⟨gs, h', c1, c2, c3, c4, c5⟩ := hct.step x h xs y st.reach hr hst s1 s2
    obtain ⟨tx, w1, w2⟩ := st.words
    have hw' := c5 tx a.words w1 w2 w0 hw
    have hy : Idx D L.s.ms h' a.succ := by
      obtain ⟨sc2, h2⟩ := st.succ
      exact ⟨sc2, by rw [← c3]; exact h2⟩
    have hr' : Reach m M I h' := .step hr c1 c2
    obtain ⟨z, z1, z2, z3, z4⟩ := path_ext hct hf p hp' hr' hy _ hw'
    refine ⟨z, ?_, z2, ?_, ?_⟩
    · exact (Ext.step .refl c1 c2).trans z1
    · rw [z3]; simp [pathWords]
    · rw [← z4, WordGraph.score, ← Rat.add_assoc]
      congr 1
      simp only [own]
      rw [st.score, ← Rat.intCast_add]
      congr 1
      have k1 := hct.heur x h st.reach hr hst
      have k2 := hct.heur y h' (.step st.reach s1 s2) hr' c3
      omega

/-- Conversely, every path from the initial state to a final state spells a translation that the search can produce, with
its score; the translation is complete, except if the first result was incomplete and has the same state. -/
theorem C93_paths {o : WgOpts} {m : Mode} {D : Dec S} {M : Model} {I : Input} (ho : o.enabled = true)
    (hI : m = .trans → FromRaw I) (hl : lengthsOk m I = true) (hct : WgContract m D M I) {ms : MultiStack.MS S HypData} {g : WG}
    {L : Loop S} {g1 : WG} (h : WSession o m D M I ms g L g1) {f : Nat} {p : List (Nat × Arc)} (hf : f ∈ g1.final)
    (hp : Path (Live g1) WordGraph.initialState p f) (hne : p ≠ []) :
    ∃ x, Reach m M I x ∧ plainText m I x.data = some (pathWords p) ∧
      g1.init + WordGraph.score own p = ((x.score + M.heur x.data : Int) : Rat) ∧
      (isComplete I.src.length x.data = true ∨
        m = .trans ∧ ∃ L0 g0, translateW o m D M I ms g = some (L0, g0) ∧
          isComplete I.src.length L0.result.data = false ∧ D.st x.data = D.st L0.result.data) := by
  obtain ⟨h1, _, hgr⟩ := wsession_spec ho hI hl h
  have hnull : Idx D L.s.ms (nullHyp M) 0 := by
    obtain ⟨k, a, p', _, _, hlive, _⟩ := hp.inv.resolve_left (by rintro ⟨h, _⟩; exact hne h)
    obtain ⟨x, y, st⟩ := h1.gi.arcs k a hlive.1
    obtain ⟨sc, hx⟩ := st.pred
    exact h1.gi.null _ _ hx
  obtain ⟨x, x1, x2, x3, x4⟩ := path_ext hct h1 p hp .null hnull [] (spells_null hI g1).text
  have hxr : Reach m M I x := x1.reach .null
  refine ⟨x, hxr, x3, ?_, ?_⟩
  · rw [h1.gi.init hct.null (path_ne hp hne)]; exact x4
  · obtain ⟨sx, x2⟩ := x2
    rcases h1.gi.final f hf with ⟨hm, L0, g0, k1, k2, k3⟩ | ⟨q, q1, q2, ⟨sq, q3⟩, _⟩
    · right
      refine ⟨hm, L0, g0, k1, k2, ?_⟩
      rcases k3 with k3 | ⟨k3, k4⟩
      · obtain ⟨sc, k5⟩ := (hgr _ _ k1).dict.idx k3
        exact h1.s.core.dinj _ _ _ _ x2 k5 rfl
      · subst k3
        obtain ⟨sn, hnull⟩ := hnull
        have hx0 := hct.null x hxr (h1.s.core.dinj _ _ _ _ x2 hnull rfl)
        obtain ⟨L', g', e1, e2, e3, _⟩ := translateW_spec (D := D) (M := M) ho hI ms g
        rw [k1] at e1; cases e1
        rcases e3.res with e | ⟨i, _, e, _⟩
        · rw [e, hx0]
        · exact absurd e (k4 i)
    · left
      rw [hct.complete x q hxr q1 (h1.s.core.dinj _ _ _ _ x2 q3 rfl)]
      exact q2

end Thot.Search
