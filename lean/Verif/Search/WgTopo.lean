import Verif.Search.WgThms

/-!
Property C95: breadth-first search builds topologically ordered word graphs.
-/
namespace Thot.Search
open Thot.StrProc (Str)
open Thot.MultiStack (elems Core SortedOk Outcome push_spec pop_spec empty_iff)
open Thot.AMap (lk)
open Thot.WordGraph (WG Arc Live Path own)

variable {S : Type} [DecidableEq S]

/-! ### Specification -/

/-- The number of source words that remain to be covered. -/
abbrev left (I : Input) (h : Hyp) : Nat := uncovered I.src.length h.data

/-- The state determines the number of words covered, and the order of the equivalence classes looks at it first
(`PhrHypNumcovJumpsEqClassF`). -/
structure ByCoverage (m : Mode) (D : Dec S) (M : Model) (I : Input) : Prop where
  state : ∀ h g, Reach m M I h → Reach m M I g → D.st h.data = D.st g.data → left I h = left I g
  cls : ∀ h g, Reach m M I h → Reach m M I g → D.cls h.data ≤ D.cls g.data → left I g ≤ left I h

/-! ### Proof -/

/-- All arcs leave states with at least `c` words left, and all stored hypotheses have at most `c` words left. -/
structure TInv (m : Mode) (D : Dec S) (M : Model) (I : Input) (c : Nat) (ms : MultiStack.MS S HypData) (g : WG) : Prop where
  topo : WordGraph.Topo g
  arcs : ∀ (i : Nat) (a : Arc), g.arcs[i]? = some a → ∃ x, Reach m M I x ∧ Idx D ms x a.pred ∧ c ≤ left I x
  el : ∀ k, ∀ e ∈ elems ms k, left I (back D M I.src.length e.2.2) ≤ c

theorem left_complete {I : Input} {h : Hyp} (hc : isComplete I.src.length h.data = true) : left I h = 0 := by
  unfold isComplete at hc
  simpa using hc

theorem left_incomplete {I : Input} {h : Hyp} (hc : isComplete I.src.length h.data = false) : 0 < left I h := by
  unfold isComplete at hc
  have : left I h ≠ 0 := by
    intro h0
    rw [show uncovered I.src.length h.data = 0 from h0] at hc
    simp at hc
  omega

/-- In breadth-first search an incomplete hypothesis popped has as many words left as any other. -/
theorem pop_left {m : Mode} {D : Dec S} {M : Model} {I : Input} (hbf : D.breadthFirst = true) (hcov : ByCoverage m D M I)
    {s s' : DState S} (hs : SInv m D M I s) (hne : MultiStack.empty s.ms = false) {x : Hyp}
    (he : decPop D M I.src.length s = some (x, s')) (hx : isComplete I.src.length x.data = false) :
    ∀ k, ∀ e ∈ elems s.ms k, left I (back D M I.src.length e.2.2) ≤ left I x := by
  have hmem : ∀ k, ∀ e ∈ elems s.ms k, ∃ h, Reach m M I h ∧ back D M I.src.length e.2.2 = h ∧ k = D.cls h.data ∧
      e.2.2.data = h.data := by
    intro k e hh
    obtain ⟨h, h1, h2⟩ := hs.el k e hh
    obtain ⟨_, h3, _⟩ := hs.core.el k e hh
    exact ⟨h, h1, by rw [h2, back_stored], by rw [h2] at h3; exact h3.symm, by rw [h2]; rfl⟩
  unfold decPop popStored at he
  rw [if_pos hbf] at he
  obtain ⟨c1, s1⟩ := MultiStack.core_setBf hs.core hs.sorted true
  obtain ⟨c2, s2⟩ := MultiStack.core_setBf hs.core hs.sorted false
  obtain ⟨e, ms', k, r, e1, e2, e3, e4, e5, e6, e7, e8, _⟩ := pop_spec c1 s1 hne
  have htop : MultiStack.top 0 (MultiStack.setBf s.ms true) = some e := by
    unfold MultiStack.top
    unfold MultiStack.pop at e1
    cases hs : (MultiStack.setBf s.ms true).sorted with
    | nil => rw [hs] at e1; cases e1
    | cons k0 ks =>
      rw [hs] at e1
      dsimp only at e1 ⊢
      cases ht : MultiStack.topOf (MultiStack.setBf s.ms true) k0 with
      | none => rw [ht] at e1; cases e1
      | some t0 =>
        rw [ht] at e1
        have hbf : (MultiStack.setBf s.ms true).bf = true := rfl
        simp only [hbf, if_true, ht] at e1 ⊢
        split at e1
        · cases e1
        · split at e1
          · cases e1
          · split at e1
            · cases e1
            · injection e1 with e1; injection e1 with e1; rw [e1]
  rw [htop] at he
  dsimp only at he
  have hek : e ∈ elems s.ms k := by
    have : elems (MultiStack.setBf s.ms true) k = e :: r := e6
    have h2 : elems s.ms k = e :: r := this
    rw [h2]; simp
  obtain ⟨y, y1, y2, y3, y4⟩ := hmem k e hek
  have hmin : ∀ j, ∀ z ∈ elems s.ms j, left I (back D M I.src.length z.2.2) ≤ left I y := by
    intro j z hz
    obtain ⟨h, h1, h2, h3, _⟩ := hmem j z hz
    rw [h2]
    refine hcov.cls y h y1 h1 ?_
    rw [← y3, ← h3]
    refine e8 rfl j ?_
    show elems s.ms j ≠ []
    intro hnil; rw [hnil] at hz; cases hz
  split at he
  · rename_i hcomp
    obtain ⟨e', ms'', k', r', f1, f2, f3, f4, f5, f6, f7, _⟩ := pop_spec c2 s2 hne
    rw [f1] at he
    cases he
    have hek' : e' ∈ elems s.ms k' := by
      have h2 : elems s.ms k' = e' :: r' := f6
      rw [h2]; simp
    have h1 := hmin k' e' hek'
    have h0 : left I y = 0 := left_complete (by rw [← y4]; exact hcomp)
    have h3 : 0 < left I (back D M I.src.length e'.2.2) := left_incomplete hx
    omega
  · rw [e1] at he
    cases he
    rw [y2]
    exact hmin

/-- A push of an expansion of the hypothesis being expanded, with its arc. -/
theorem tinv_push {o : WgOpts} {m : Mode} {D : Dec S} {M : Model} {I : Input} {F : Nat → Prop} (ho : o.enabled = true)
    (hI : m = .trans → FromRaw I) (hcov : ByCoverage m D M I) {s s' : DState S} (hs : SInv m D M I s) {g g' : WG}
    (hg : GInv o m D M I F s.ms g) {p q : Hyp} {es : List Hyp} (hr : Reach m M I p) (he : expandMode m M I p = some es)
    (hm : q ∈ es) {i : Nat} (hpi : Idx D s.ms p i) {ok : Bool} (hpush : decPush D M I.src.length s q = some (ok, s'))
    (ha : addArcTo o m D M I s'.ms g p q = some g') {c : Nat} (hc : left I p = c) (ht : TInv m D M I c s.ms g)
    (hs' : SInv m D M I s') : TInv m D M I c s'.ms g' := by
  obtain ⟨d1, d2, d3⟩ := decPush_dict hs hpush
  have hlt : left I q < c := by rw [← hc]; exact uncovered_step hr he hm
  have hel : ∀ k, ∀ e ∈ elems s'.ms k, left I (back D M I.src.length e.2.2) ≤ c := by
    intro k e hh
    rcases d3 k e hh with h1 | ⟨h1, _⟩
    · exact ht.el k e h1
    · rw [h1, back_stored]; omega
  obtain ⟨isc, hi⟩ := d1.idx hpi
  unfold addArcTo at ha
  rw [if_pos ho, hi] at ha
  have harcs : ∀ (i : Nat) (a : Arc), g.arcs[i]? = some a → ∃ x, Reach m M I x ∧ Idx D s'.ms x a.pred ∧ c ≤ left I x := by
    intro k a h
    obtain ⟨x, h1, h2, h3⟩ := ht.arcs k a h
    exact ⟨x, h1, d1.idx h2, h3⟩
  cases hj : lk s'.ms.dict (D.st q.data) with
  | none =>
    rw [hj] at ha
    cases ha
    exact ⟨ht.topo, harcs, hel⟩
  | some jp =>
    obtain ⟨j, jsc⟩ := jp
    rw [hj] at ha
    dsimp only at ha
    obtain ⟨a1, a2, a3, a4, a5, a6⟩ := prepareArc_eq M I.src.length i j p q g
    obtain ⟨g0, hg0⟩ : ∃ g0, g0 = prepareArc M I.src.length i j p q g := ⟨_, rfl⟩
    rw [← hg0] at a1 a2 a3 a4 ha
    have hi0 : i = 0 ∨ i < g.states.length := by
      obtain ⟨sc, h⟩ := hpi
      exact hg.idx _ _ _ h
    obtain ⟨g2, t, w, b1, b2, b3, b4, b5, _⟩ := putArc_spec (o := o) (i := i) (j := j) hI hr he hm
      (wf_of_eq hg.wf a1 a2 a3 a4) (by rw [a3]; simp only [Nat.max_def]; split <;> omega)
    rw [b1] at ha; cases ha
    rw [a1] at b5
    obtain ⟨na, hna⟩ : ∃ na : Arc, na = ⟨i, j, (((q.score + M.heur q.data) - (p.score + M.heur p.data) : Int) : Rat), w⟩ := ⟨_, rfl⟩
    rw [← hna] at b5
    have hq : Reach m M I q := .step hr he hm
    have hall : ∀ (k : Nat) (a : Arc), g'.arcs[k]? = some a → ∃ x, Reach m M I x ∧ Idx D s'.ms x a.pred ∧ c ≤ left I x := by
      intro k a h
      rw [b5] at h
      rcases Nat.lt_or_ge k g.arcs.length with hk | hk
      · rw [List.getElem?_append_left hk] at h
        exact harcs k a h
      · have hk' : k = g.arcs.length := by
          have := (List.getElem?_eq_some_iff.1 h).1
          simp at this; omega
        rw [hk', List.getElem?_concat_length] at h
        cases h
        exact ⟨p, hr, by rw [hna]; exact ⟨isc, hi⟩, by omega⟩
    refine ⟨?_, hall, hel⟩
    intro k l a b h1 h2 hkl heq
    have hl := (List.getElem?_eq_some_iff.1 h2).1
    rw [b5] at hl
    simp only [List.length_append, List.length_cons, List.length_nil] at hl
    rcases Nat.lt_or_ge l g.arcs.length with hl' | hl'
    · rw [b5, List.getElem?_append_left hl'] at h2
      rw [b5, List.getElem?_append_left (by omega)] at h1
      exact ht.topo k l a b h1 h2 hkl heq
    · obtain ⟨x, x1, ⟨xsc, x2⟩, x3⟩ := hall k a h1
      have hl2 : l = g.arcs.length := by omega
      rw [b5, hl2, List.getElem?_concat_length] at h2
      cases h2
      rw [hna] at heq
      dsimp only at heq
      rw [← heq] at x2
      have hst := hs'.core.dinj _ _ _ _ hj x2 rfl
      have := hcov.state q x hq x1 hst
      omega

theorem tinv_pushAll {o : WgOpts} {m : Mode} {D : Dec S} {M : Model} {I : Input} {F : Nat → Prop} (ho : o.enabled = true)
    (hI : m = .trans → FromRaw I) (hcov : ByCoverage m D M I) {p : Hyp} {es : List Hyp} (hr : Reach m M I p)
    (he : expandMode m M I p = some es) {c : Nat} (hc : left I p = c) :
    ∀ (hs : List Hyp) {s s' : DState S} {g g' : WG}, (∀ h ∈ hs, h ∈ es) → SInv m D M I s → GInv o m D M I F s.ms g →
      Has m D M I s.ms g p → TInv m D M I c s.ms g → pushAllW o m D M I p hs s g = some (s', g') → TInv m D M I c s'.ms g'
  | [], s, s', g, g', _, _, _, _, ht, h => by
    cases h
    exact ht
  | q :: hs, s, s', g, g', hsub, h1, h2, h3, ht, h => by
    have hq := hsub q (by simp)
    obtain ⟨ok, s1, e1, e2⟩ := decPush_spec h1 (.step hr he hq)
    obtain ⟨i, pp, k1, k2⟩ := h3
    obtain ⟨g1, f1, f2, f3, f4, f5⟩ := pushGiven_spec ho hI h1 h2 hr he hq k1 k2 e1
    have hgr : Grows s.ms s1.ms g g1 := ⟨f5, f3, f4⟩
    have ht1 := tinv_push ho hI hcov h1 h2 hr he hq k1 e1 f1 hc ht e2
    rw [pushAllW, e1] at h
    dsimp only at h
    rw [f1] at h
    exact tinv_pushAll ho hI hcov hr he hc hs (fun h hh => hsub h (by simp [hh])) e2 f2 (Has.mono ⟨i, pp, k1, k2⟩ hgr) ht1 h

theorem tinv_loop {o : WgOpts} {m : Mode} {D : Dec S} {M : Model} {I : Input} {F : Nat → Prop} (ho : o.enabled = true)
    (hI : m = .trans → FromRaw I) (hsafe : Safe m M I) (hcov : ByCoverage m D M I) (hbf : D.breadthFirst = true) (hI1 : D.I = 1) :
    ∀ (k : Nat) {L L' : Loop S} {g g' : WG} {c : Nat}, WInv o m D M I F L g → TInv m D M I c L.s.ms g →
    decLoopW o m D M I k L g = some (L', g') → ∃ c', TInv m D M I c' L'.s.ms g'
  | 0, L, L', g, g', c, _, ht, he => by cases he; exact ⟨c, ht⟩
  | k + 1, L, L', g, g', c, h, ht, he => by
    have he0 := he
    unfold decLoopW at he
    cases hE : L.ended with
    | true =>
      rw [hE, if_pos rfl] at he
      cases he; exact ⟨c, ht⟩
    | false =>
      rw [hE, if_neg (by simp), hI1] at he
      cases hem : MultiStack.empty L.s.ms with
      | true =>
        have hp : popUpTo D M I.src.length 1 L.s = some ([], L.s) := by simp [popUpTo, hem]
        rw [hp] at he
        cases he
        exact ⟨c, ht⟩
      | false =>
        obtain ⟨e, ms', kk, A, r, e1, e2, e3, e4, ed, e5, _, e6, _⟩ := popStored_spec h.l.s.core h.l.s.sorted D I.src.length hem
        obtain ⟨x, s1, x1, x2, x3⟩ := decPop_spec h.l.s hem
        have hx : x = back D M I.src.length e.2.2 ∧ s1 = { L.s with ms := ms' } := by
          rw [decPop, e1] at x1
          cases x1; exact ⟨rfl, rfl⟩
        have hp : popUpTo D M I.src.length 1 L.s = some ([x], s1) := by simp [popUpTo, hem, x1]
        obtain ⟨p1, p2, p3⟩ := popUpToW_spec 1 h.l.s h.gi hp
        have hhas := p3 x (by simp)
        rw [hp] at he
        dsimp only at he
        have hres : L.result = nullHyp M ∨ Has m D M I s1.ms g L.result := by
          rcases h.res with h1 | h1
          · exact Or.inl h1
          · exact Or.inr (h1.mono p2)
        have hW : WInv o m D M I F ⟨false, L.result, s1⟩ g := ⟨⟨x2, h.l.res, fun h => (by cases h), h.l.other⟩, p1, hres⟩
        have hsub : ∀ j, ∀ y ∈ elems s1.ms j, y ∈ elems L.s.ms j := by
          intro j y hy
          rw [hx.2] at hy
          dsimp only at hy
          rw [e6] at hy
          by_cases hj : j = kk
          · rw [if_pos hj] at hy; rw [hj, e5]; simp [hy]
          · rw [if_neg hj] at hy; exact hy
        obtain ⟨L1, g1, f1, f2, f3, f4⟩ := handleW_spec ho hI hsafe hW x3 hhas
        have hH : handleAllW o m D M I [x] ⟨false, L.result, s1⟩ g = some (L1, g1) := by
          simp only [handleAllW, f1]
        rw [hH] at he
        dsimp only at he
        have hi : ∃ c', TInv m D M I c' L1.s.ms g1 := by
          unfold handleW at f1
          cases hc : isComplete I.src.length x.data with
          | true =>
            rw [hc, if_pos rfl, if_pos rfl] at f1
            cases f1
            refine ⟨c, ht.topo, ?_, fun j y hy => ht.el j y (hsub j y hy)⟩
            intro i a ha
            obtain ⟨z, z1, z2, z3⟩ := ht.arcs i a ha
            exact ⟨z, z1, p2.dict.idx z2, z3⟩
          | false =>
            rw [hc, if_neg (by simp)] at f1
            obtain ⟨hs, ee⟩ := hsafe x x3
            rw [ee] at f1
            dsimp only at f1
            have hsub' : ∀ x ∈ hs.reverse, x ∈ hs := fun x hx => by simpa using hx
            obtain ⟨s2, g2, j1, _⟩ := pushAllW_spec ho hI x3 ee hs.reverse hsub' x2 p1 hhas
            rw [j1] at f1
            cases f1
            have hmin := pop_left hbf hcov h.l.s hem x1 hc
            have hxc : left I x ≤ c := by
              rw [hx.1]
              exact ht.el kk e (by rw [e5]; simp)
            refine ⟨left I x, tinv_pushAll ho hI hcov x3 ee rfl hs.reverse hsub' x2 p1 hhas ?_ j1⟩
            refine ⟨ht.topo, ?_, fun j y hy => hmin j y (hsub j y hy)⟩
            intro i a ha
            obtain ⟨z, z1, z2, z3⟩ := ht.arcs i a ha
            exact ⟨z, z1, p2.dict.idx z2, by omega⟩
        obtain ⟨c', hi⟩ := hi
        exact tinv_loop ho hI hsafe hcov hbf hI1 k f3 hi he

theorem tinv_session {o : WgOpts} {m : Mode} {D : Dec S} {M : Model} {I : Input} (ho : o.enabled = true)
    (hI : m = .trans → FromRaw I) (hl : lengthsOk m I = true) (hcov : ByCoverage m D M I) (hbf : D.breadthFirst = true)
    (hI1 : D.I = 1) {ms : MultiStack.MS S HypData} {g : WG} {L : Loop S} {g1 : WG} (h : WSession o m D M I ms g L g1) :
    ∃ c, TInv m D M I c L.s.ms g1 := by
  induction h with
  | @first L g1 h =>
    rw [translateW, hl, if_pos rfl] at h
    obtain ⟨ok, s1, e1, e2⟩ := decPush_spec (sinv_clear m D M I ms D.worst) (h := nullHyp M) .null
    rw [e1] at h
    dsimp only at h
    obtain ⟨_, _, d3⟩ := decPush_dict (sinv_clear m D M I ms D.worst) e1
    have hW : WInv o m D M I (fun _ => False) ⟨false, nullHyp M, s1⟩ (WordGraph.clear g) :=
      ⟨⟨e2, .null, fun h => (by cases h), fun _ _ => rfl⟩, ginv_null hI e1, Or.inl rfl⟩
    have hT : TInv m D M I (left I (nullHyp M)) s1.ms (WordGraph.clear g) := by
      refine ⟨?_, ?_, ?_⟩
      · intro i j a b h; simp [WordGraph.clear] at h
      · intro i a h; simp [WordGraph.clear] at h
      · intro k e he
        rcases d3 k e he with h1 | ⟨h1, _⟩
        · cases h1
        · rw [h1, back_stored]; exact Nat.le_refl _
    obtain ⟨L', g', f1, f2, f3, f4⟩ := decLoopW_spec (o := o) ho hI (safe_of (M := M) hI hl) (D.maxIter - 1) hW
    obtain ⟨c, hc⟩ := tinv_loop ho hI (safe_of hI hl) hcov hbf hI1 (D.maxIter - 1) hW hT f1
    rw [f1] at h
    cases h
    have hpa : (postTrans m D I L' g').arcs = g'.arcs := by unfold postTrans; split <;> rfl
    refine ⟨c, ?_, ?_, hc.el⟩
    · intro i j a b h1 h2
      dsimp only at h1 h2
      rw [hpa] at h1 h2
      exact hc.topo i j a b h1 h2
    · intro i a h1
      dsimp only at h1
      rw [hpa] at h1
      exact hc.arcs i a h1
  | @next L L' g1 g2 h1 h2 ih =>
    obtain ⟨c, ih⟩ := ih
    obtain ⟨h, _, _⟩ := wsession_spec ho hI hl h1
    have hW : WInv o m D M I (Extra o m D M I ms g) ⟨false, nullHyp M, { L.s with best := D.worst }⟩ g1 :=
      ⟨⟨⟨h.s.core, h.s.sorted, h.s.el⟩, .null, fun h => (by cases h), fun _ _ => rfl⟩, h.gi, Or.inl rfl⟩
    exact tinv_loop ho hI (safe_of hI hl) hcov hbf hI1 (D.maxIter - 1) hW ih h2

/-- The arcs of a word graph built by breadth-first search with `I = 1` are topologically ordered, as the operations on word
graphs expect. -/
theorem C95_topo_partial {o : WgOpts} {m : Mode} {D : Dec S} {M : Model} {I : Input} (ho : o.enabled = true)
    (hI : m = .trans → FromRaw I) (hl : lengthsOk m I = true) (hcov : ByCoverage m D M I) (hbf : D.breadthFirst = true)
    (hI1 : D.I = 1) {ms : MultiStack.MS S HypData} {g : WG} {L : Loop S} {g1 : WG} (h : WSession o m D M I ms g L g1) :
    WordGraph.Topo g1 := by
  obtain ⟨c, hc⟩ := tinv_session ho hI hl hcov hbf hI1 h
  exact hc.topo

/-- The final states exist, too, if there are arcs. -/
theorem C95_final {o : WgOpts} {m : Mode} {D : Dec S} {M : Model} {I : Input} (ho : o.enabled = true)
    (hI : m = .trans → FromRaw I) (hl : lengthsOk m I = true) {ms : MultiStack.MS S HypData} {g : WG} {L : Loop S} {g1 : WG}
    (h : WSession o m D M I ms g L g1) (hne : g1.arcs ≠ []) : WordGraph.FinalOk g1 := by
  obtain ⟨h1, _, hgr⟩ := wsession_spec ho hI hl h
  have h0 : 0 < g1.states.length := by
    cases ha : g1.arcs with
    | nil => exact absurd ha hne
    | cons a as => exact Nat.lt_of_le_of_lt (Nat.zero_le _) (h1.gi.wf.pred 0 a (by rw [ha]; rfl))
  intro f hf
  rcases h1.gi.final f hf with ⟨_, L0, g0, k1, _, k3⟩ | ⟨_, _, _, _, i, a, h4, h5⟩
  · rcases k3 with k3 | ⟨k3, _⟩
    · obtain ⟨sc, k5⟩ := (hgr _ _ k1).dict.idx k3
      rcases h1.gi.idx _ _ _ k5 with h6 | h6
      · omega
      · exact h6
    · omega
  · rw [← h5]; exact h1.gi.wf.succ i a h4

end Thot.Search
