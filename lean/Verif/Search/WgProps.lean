import Verif.Search.WgInv
import Verif.Search.Optimal

/-!
Properties C93 and C94: the word graph built by the search.
-/
namespace Thot.Search
open Thot.StrProc (Str)
open Thot.MultiStack (elems Core SortedOk Outcome push_spec pop_spec empty_iff)
open Thot.AMap (lk)
open Thot.WordGraph (WG Arc Live Path own)

variable {S : Type} [DecidableEq S]

/-- The graph has a path for `h`. -/
def Has (m : Mode) (D : Dec S) (M : Model) (I : Input) (ms : MultiStack.MS S HypData) (g : WG) (h : Hyp) : Prop :=
  ∃ i p, Idx D ms h i ∧ Spells m M I g p i h

/-- Graph and dictionary only grow. -/
structure Grows (ms ms' : MultiStack.MS S HypData) (g g' : WG) : Prop where
  dict : DictLe ms ms'
  arcs : WgLe g g'
  final : ∀ f ∈ g.final, f ∈ g'.final

theorem Grows.refl (ms : MultiStack.MS S HypData) (g : WG) : Grows ms ms g g := ⟨DictLe.refl _, fun _ _ h => h, fun _ h => h⟩

theorem Grows.trans {a b c : MultiStack.MS S HypData} {x y z : WG} (h1 : Grows a b x y) (h2 : Grows b c y z) : Grows a c x z :=
  ⟨h1.dict.trans h2.dict, fun i a h => h2.arcs i a (h1.arcs i a h), fun f h => h2.final f (h1.final f h)⟩

theorem Has.mono {m : Mode} {D : Dec S} {M : Model} {I : Input} {ms ms' : MultiStack.MS S HypData} {g g' : WG} {h : Hyp}
    (hh : Has m D M I ms g h) (hg : Grows ms ms' g g') : Has m D M I ms' g' h := by
  obtain ⟨i, p, h1, h2⟩ := hh
  exact ⟨i, p, hg.dict.idx h1, h2.mono hg.arcs hg.final⟩

theorem pushAllW_spec {o : WgOpts} {m : Mode} {D : Dec S} {M : Model} {I : Input} {F : Nat → Prop} (ho : o.enabled = true)
    (hI : m = .trans → FromRaw I) {p : Hyp} {es : List Hyp} (hr : Reach m M I p) (he : expandMode m M I p = some es) :
    ∀ (hs : List Hyp) {s : DState S} {g : WG}, (∀ h ∈ hs, h ∈ es) → SInv m D M I s → GInv o m D M I F s.ms g →
      Has m D M I s.ms g p → ∃ s' g', pushAllW o m D M I p hs s g = some (s', g') ∧ pushAll D M I.src.length hs s = some s' ∧
        SInv m D M I s' ∧ GInv o m D M I F s'.ms g' ∧ Grows s.ms s'.ms g g'
  | [], s, g, _, h1, h2, _ => ⟨s, g, rfl, rfl, h1, h2, Grows.refl _ _⟩
  | q :: hs, s, g, hsub, h1, h2, h3 => by
    have hq := hsub q (by simp)
    obtain ⟨ok, s1, e1, e2⟩ := decPush_spec h1 (.step hr he hq)
    obtain ⟨i, pp, k1, k2⟩ := h3
    obtain ⟨g1, f1, f2, f3, f4, f5⟩ := pushGiven_spec ho hI h1 h2 hr he hq k1 k2 e1
    have hgr : Grows s.ms s1.ms g g1 := ⟨f5, f3, f4⟩
    obtain ⟨s2, g2, j1, j2, j3, j4, j5⟩ := pushAllW_spec ho hI hr he hs (s := s1) (g := g1)
      (fun h hh => hsub h (by simp [hh])) e2 f2 (Has.mono ⟨i, pp, k1, k2⟩ hgr)
    refine ⟨s2, g2, ?_, ?_, j3, j4, hgr.trans j5⟩
    · rw [pushAllW, e1]; dsimp only; rw [f1]; exact j1
    · rw [pushAll, e1]; exact j2

/-- Pushing again a hypothesis that has a path. -/
theorem repush_spec {o : WgOpts} {m : Mode} {D : Dec S} {M : Model} {I : Input} {F : Nat → Prop} {s s' : DState S} {g : WG}
    (hs : SInv m D M I s) (hg : GInv o m D M I F s.ms g) {h : Hyp} (hh : Has m D M I s.ms g h) {ok : Bool}
    (he : decPush D M I.src.length s h = some (ok, s')) : GInv o m D M I F s'.ms g ∧ Grows s.ms s'.ms g g := by
  obtain ⟨d1, d2, d3⟩ := decPush_dict hs he
  have hgr : Grows s.ms s'.ms g g := ⟨d1, fun _ _ h => h, fun _ h => h⟩
  refine ⟨?_, hgr⟩
  obtain ⟨hi, hp, ⟨hsc, hidx⟩, hspell⟩ := hh
  have hb : ∀ st i sc, lk s'.ms.dict st = some (i, sc) → ∃ sc', lk s.ms.dict st = some (i, sc') := by
    intro st i sc h1
    rcases d2 st i sc h1 with h2 | ⟨h2, h3, _⟩
    · exact h2
    · rw [h2, hidx] at h3; cases h3
  refine ⟨hg.wf, hg.live, ?_, ?_, ?_, ?_, ?_, hg.init, ?_⟩
  · intro st i sc h1; obtain ⟨sc', h2⟩ := hb _ _ _ h1; exact hg.idx _ _ _ h2
  · intro st i sc h1; obtain ⟨sc', h2⟩ := hb _ _ _ h1; exact hg.hyp _ _ _ h2
  · intro k e h1
    rcases d3 k e h1 with h2 | ⟨h2, _⟩
    · obtain ⟨i, p, h3, h4⟩ := hg.stored k e h2
      exact ⟨i, p, d1.idx h3, h4⟩
    · rw [h2, back_stored]
      exact ⟨hi, hp, d1.idx ⟨hsc, hidx⟩, hspell⟩
  · intro i a h1
    obtain ⟨p, q, h2⟩ := hg.arcs i a h1
    exact ⟨p, q, h2.mono d1 fun _ h => h⟩
  · intro f hf
    rcases hg.final f hf with h | ⟨q, h1, h2, h3, h4⟩
    · exact Or.inl h
    · exact Or.inr ⟨q, h1, h2, d1.idx h3, h4⟩
  · intro st p h1
    obtain ⟨sc, h2⟩ := hg.null _ _ hidx
    exact d1 _ _ _ h2

theorem popUpToW_spec {o : WgOpts} {m : Mode} {D : Dec S} {M : Model} {I : Input} {F : Nat → Prop} {g : WG} :
    ∀ (k : Nat) {s s' : DState S} {hs : List Hyp}, SInv m D M I s → GInv o m D M I F s.ms g →
      popUpTo D M I.src.length k s = some (hs, s') → GInv o m D M I F s'.ms g ∧ Grows s.ms s'.ms g g ∧
        ∀ h ∈ hs, Has m D M I s'.ms g h
  | 0, s, s', hs, _, hg, h => by
    cases h
    exact ⟨hg, Grows.refl _ _, by simp⟩
  | k + 1, s, s', hs, hs1, hg, h => by
    unfold popUpTo at h
    cases he : MultiStack.empty s.ms with
    | true =>
      rw [he, if_pos rfl] at h
      cases h
      exact ⟨hg, Grows.refl _ _, by simp⟩
    | false =>
      rw [he, if_neg (by simp)] at h
      obtain ⟨e, ms', kk, A, r, e1, e2, e3, e4, ed, e5, _, e6, _⟩ := popStored_spec hs1.core hs1.sorted D I.src.length he
      obtain ⟨x, s1, x1, x2, x3⟩ := decPop_spec hs1 he
      rw [x1] at h
      dsimp only at h
      have hx : x = back D M I.src.length e.2.2 ∧ s1 = { s with ms := ms' } := by
        rw [decPop, e1] at x1
        cases x1; exact ⟨rfl, rfl⟩
      have hdict : s1.ms.dict = s.ms.dict := by rw [hx.2]; exact ed
      have hel : ∀ j, ∀ y ∈ elems s1.ms j, y ∈ elems s.ms j := by
        intro j y hy
        rw [hx.2] at hy
        dsimp only at hy
        rw [e6] at hy
        by_cases hj : j = kk
        · rw [if_pos hj] at hy; rw [hj, e5]; simp [hy]
        · rw [if_neg hj] at hy; exact hy
      have hgr : Grows s.ms s1.ms g g := ⟨fun st i sc h => ⟨sc, by rw [hdict]; exact h⟩, fun _ _ h => h, fun _ h => h⟩
      have hg1 : GInv o m D M I F s1.ms g := hg.shrink hgr.dict (fun st i sc h => ⟨sc, by rw [← hdict]; exact h⟩) hel
      have hxp : Has m D M I s.ms g x := by
        obtain ⟨i, p, q1, q2⟩ := hg.stored kk e (by rw [e5]; simp)
        rw [hx.1]; exact ⟨i, p, q1, q2⟩
      cases hp : popUpTo D M I.src.length k s1 with
      | none => rw [hp] at h; cases h
      | some r =>
        rw [hp] at h
        obtain ⟨ys, s2⟩ := r
        cases h
        obtain ⟨q1, q2, q3⟩ := popUpToW_spec k x2 hg1 hp
        refine ⟨q1, hgr.trans q2, ?_⟩
        intro y hy
        rcases List.mem_cons.1 hy with rfl | hy
        · exact (hxp.mono hgr).mono q2
        · exact q3 y hy

structure WInv (o : WgOpts) (m : Mode) (D : Dec S) (M : Model) (I : Input) (F : Nat → Prop) (L : Loop S) (g : WG) : Prop where
  l : LInv m D M I L
  gi : GInv o m D M I F L.s.ms g
  res : L.result = nullHyp M ∨ Has m D M I L.s.ms g L.result

theorem handleW_spec {o : WgOpts} {m : Mode} {D : Dec S} {M : Model} {I : Input} {F : Nat → Prop} (ho : o.enabled = true)
    (hI : m = .trans → FromRaw I) (hsafe : Safe m M I) {L : Loop S} {g : WG} (hL : WInv o m D M I F L g)
    {h : Hyp} (hr : Reach m M I h) (hh : Has m D M I L.s.ms g h) :
    ∃ L' g', handleW o m D M I L g h = some (L', g') ∧ handle m D M I L h = some L' ∧ WInv o m D M I F L' g' ∧
      Grows L.s.ms L'.s.ms g g' := by
  obtain ⟨L', l1, l2⟩ := handle_spec hsafe hL.l hr
  unfold handleW
  have l1' := l1
  unfold handle at l1
  cases hc : isComplete I.src.length h.data with
  | true =>
    rw [hc, if_pos rfl] at l1
    rw [if_pos rfl]
    cases he : L.ended with
    | false =>
      rw [he, if_pos rfl] at l1
      rw [if_pos rfl]
      cases l1
      exact ⟨_, g, rfl, l1', ⟨l2, hL.gi, Or.inr hh⟩, Grows.refl _ _⟩
    | true =>
      rw [he, if_neg (by simp)] at l1
      rw [if_neg (by simp)]
      obtain ⟨ok, s', e1, e2⟩ := decPush_spec hL.l.s hr
      rw [e1] at l1 ⊢
      cases l1
      obtain ⟨q1, q2⟩ := repush_spec hL.l.s hL.gi hh e1
      refine ⟨_, g, rfl, l1', ⟨l2, q1, ?_⟩, q2⟩
      rcases hL.res with h1 | h1
      · exact Or.inl h1
      · exact Or.inr (h1.mono q2)
  | false =>
    rw [hc, if_neg (by simp)] at l1
    rw [if_neg (by simp)]
    obtain ⟨hs, e⟩ := hsafe h hr
    rw [e] at l1 ⊢
    dsimp only at l1 ⊢
    obtain ⟨s', g', j1, j2, j3, j4, j5⟩ := pushAllW_spec ho hI hr e hs.reverse (fun x hx => by simpa using hx) hL.l.s hL.gi hh
    rw [j2] at l1
    rw [j1]
    cases l1
    refine ⟨_, g', rfl, l1', ⟨l2, j4, ?_⟩, j5⟩
    dsimp only
    rcases updateResult_cases m I.src.length L.result h with hu | ⟨hu, _⟩
    · rw [hu]
      rcases hL.res with h1 | h1
      · exact Or.inl h1
      · exact Or.inr (h1.mono j5)
    · rw [hu]; exact Or.inr (hh.mono j5)

theorem handleAllW_spec {o : WgOpts} {m : Mode} {D : Dec S} {M : Model} {I : Input} {F : Nat → Prop} (ho : o.enabled = true)
    (hI : m = .trans → FromRaw I) (hsafe : Safe m M I) : ∀ (hs : List Hyp) {L : Loop S} {g : WG}, WInv o m D M I F L g →
    (∀ h ∈ hs, Reach m M I h ∧ Has m D M I L.s.ms g h) →
    ∃ L' g', handleAllW o m D M I hs L g = some (L', g') ∧ handleAll m D M I hs L = some L' ∧ WInv o m D M I F L' g' ∧
      Grows L.s.ms L'.s.ms g g'
  | [], L, g, h, _ => ⟨L, g, rfl, rfl, h, Grows.refl _ _⟩
  | x :: xs, L, g, h, hr => by
    obtain ⟨x1, x2⟩ := hr x (by simp)
    obtain ⟨L1, g1, e1, e2, e3, e4⟩ := handleW_spec ho hI hsafe h x1 x2
    obtain ⟨L2, g2, f1, f2, f3, f4⟩ := handleAllW_spec ho hI hsafe xs e3 fun y hy => by
      obtain ⟨y1, y2⟩ := hr y (by simp [hy])
      exact ⟨y1, y2.mono e4⟩
    exact ⟨L2, g2, by rw [handleAllW, e1]; exact f1, by rw [handleAll, e2]; exact f2, f3, e4.trans f4⟩

/-- What is known when the loop ends. -/
structure WFinal (o : WgOpts) (m : Mode) (D : Dec S) (M : Model) (I : Input) (F : Nat → Prop) (L : Loop S) (g : WG) : Prop where
  s : SInv m D M I L.s
  reach : Reach m M I L.result
  gi : GInv o m D M I F L.s.ms g
  res : L.result = nullHyp M ∨ Has m D M I L.s.ms g L.result

theorem decLoopW_spec {o : WgOpts} {m : Mode} {D : Dec S} {M : Model} {I : Input} {F : Nat → Prop} (ho : o.enabled = true)
    (hI : m = .trans → FromRaw I) (hsafe : Safe m M I) : ∀ (k : Nat) {L : Loop S} {g : WG}, WInv o m D M I F L g →
    ∃ L' g', decLoopW o m D M I k L g = some (L', g') ∧ decLoop m D M I k L = some L' ∧ WFinal o m D M I F L' g' ∧
      Grows L.s.ms L'.s.ms g g'
  | 0, L, g, h => ⟨L, g, rfl, rfl, ⟨h.l.s, h.l.res, h.gi, h.res⟩, Grows.refl _ _⟩
  | k + 1, L, g, h => by
    unfold decLoopW decLoop
    cases he : L.ended with
    | true => exact ⟨L, g, by simp, by simp, ⟨h.l.s, h.l.res, h.gi, h.res⟩, Grows.refl _ _⟩
    | false =>
      rw [if_neg (by simp), if_neg (by simp)]
      obtain ⟨hs, s', e1, e2, e3, e4⟩ := popUpTo_spec D.I h.l.s
      obtain ⟨p1, p2, p3⟩ := popUpToW_spec D.I h.l.s h.gi e1
      rw [e1]
      have hres : L.result = nullHyp M ∨ Has m D M I s'.ms g L.result := by
        rcases h.res with h1 | h1
        · exact Or.inl h1
        · exact Or.inr (h1.mono p2)
      cases hs with
      | nil => exact ⟨_, g, rfl, rfl, ⟨e2, h.l.res, p1, hres⟩, p2⟩
      | cons x xs =>
        dsimp only
        obtain ⟨L1, g1, f1, f2, f3, f4⟩ := handleAllW_spec ho hI hsafe (x :: xs) (L := ⟨false, L.result, s'⟩) (g := g) (F := F)
          ⟨⟨e2, h.l.res, fun h => (by cases h), h.l.other⟩, p1, hres⟩ fun y hy => ⟨e3 y hy, p3 y hy⟩
        rw [f1, f2]
        obtain ⟨L2, g2, i1, i2, i3, i4⟩ := decLoopW_spec ho hI hsafe k f3
        exact ⟨L2, g2, i1, i2, i3, (p2.trans f4).trans i4⟩

theorem ginv_new (o : WgOpts) (m : Mode) (D : Dec S) (M : Model) (I : Input) (F : Nat → Prop) (ms : MultiStack.MS S HypData)
    (g : WG) : GInv o m D M I F (MultiStack.clearAll ms) (WordGraph.clear g) where
  wf := WordGraph.wf_new
  live := fun i a h => by simp [WordGraph.clear] at h
  idx := fun st i sc h => by simp [MultiStack.clearAll, lk] at h
  hyp := fun st i sc h => by simp [MultiStack.clearAll, lk] at h
  stored := fun k e h => by cases h
  arcs := fun i a h => by simp [WordGraph.clear] at h
  final := fun f h => by simp [WordGraph.clear] at h
  init := fun _ h => absurd rfl h
  null := fun st p h => by simp [MultiStack.clearAll, lk] at h

theorem spells_null {m : Mode} {M : Model} {I : Input} (hI : m = .trans → FromRaw I) (g : WG) :
    Spells m M I g [] 0 (nullHyp M) := by
  refine ⟨.nil _, text_null m I hI, ?_, fun _ => Or.inr rfl⟩
  simp only [WordGraph.score, Rat.add_zero]
  rfl

/-- The null hypothesis is pushed into an empty container. -/
theorem ginv_null {o : WgOpts} {m : Mode} {D : Dec S} {M : Model} {I : Input} {F : Nat → Prop} (hI : m = .trans → FromRaw I)
    {ms : MultiStack.MS S HypData} {g : WG} {b : Int} {ok : Bool} {s' : DState S}
    (he : decPush D M I.src.length ⟨MultiStack.clearAll ms, b⟩ (nullHyp M) = some (ok, s')) :
    GInv o m D M I F s'.ms (WordGraph.clear g) := by
  have hs := sinv_clear m D M I ms b
  obtain ⟨d1, d2, d3⟩ := decPush_dict hs he
  have hnone : ∀ st, lk (MultiStack.clearAll ms).dict st = none := fun st => rfl
  have hd : ∀ st i sc, lk s'.ms.dict st = some (i, sc) → st = D.st nullData ∧ i = 0 := by
    intro st i sc h
    rcases d2 st i sc h with ⟨sc', h1⟩ | ⟨h1, _, h2⟩
    · dsimp only at h1; rw [hnone] at h1; cases h1
    · exact ⟨h1, h2⟩
  refine ⟨WordGraph.wf_new, (ginv_new o m D M I F ms g).live, ?_, ?_, ?_, (fun i a h => by simp [WordGraph.clear] at h),
    (fun f h => by simp [WordGraph.clear] at h), fun _ h => absurd rfl h, ?_⟩
  · intro st i sc h; exact Or.inl (hd st i sc h).2
  · intro st i sc h
    obtain ⟨h1, h2⟩ := hd st i sc h
    subst h1; subst h2
    exact ⟨nullHyp M, [], .null, rfl, spells_null hI _⟩
  · intro k e h
    rcases d3 k e h with h1 | ⟨h1, _, ⟨i, sc⟩, h2⟩
    · cases h1
    · rw [h1, back_stored]
      obtain ⟨_, h3⟩ := hd _ _ _ h2
      subst h3
      exact ⟨0, [], ⟨sc, h2⟩, spells_null hI _⟩
  · intro st p h
    obtain ⟨i, sc⟩ := p
    obtain ⟨h1, h2⟩ := hd st i sc h
    subst h1; subst h2
    exact ⟨sc, h⟩

/-- The state added by `post_trans_actions` for an incomplete result of `translate`. -/
def Extra (o : WgOpts) (m : Mode) (D : Dec S) (M : Model) (I : Input) (ms : MultiStack.MS S HypData) (g : WG) (f : Nat) : Prop :=
  m = .trans ∧ ∃ L g', translateW o m D M I ms g = some (L, g') ∧ isComplete I.src.length L.result.data = false ∧
    (Idx D L.s.ms L.result f ∨ (f = 0 ∧ ∀ i, ¬ Idx D L.s.ms L.result i))

theorem GInv.weaken {o : WgOpts} {m : Mode} {D : Dec S} {M : Model} {I : Input} {F F' : Nat → Prop} {ms : MultiStack.MS S HypData}
    {g : WG} (h : GInv o m D M I F ms g) (hf : ∀ f, F f → F' f) : GInv o m D M I F' ms g :=
  ⟨h.wf, h.live, h.idx, h.hyp, h.stored, h.arcs, fun f hh => (h.final f hh).imp (hf f) id, h.init, h.null⟩

theorem translateW_spec {o : WgOpts} {m : Mode} {D : Dec S} {M : Model} {I : Input} (ho : o.enabled = true)
    (hI : m = .trans → FromRaw I) (ms : MultiStack.MS S HypData) (g : WG) :
    ∃ L g', translateW o m D M I ms g = some (L, g') ∧ translate m D M I ms = some L ∧
      WFinal o m D M I (Extra o m D M I ms g) L g' ∧
      (lengthsOk m I = true → m = .trans → isComplete I.src.length L.result.data = false →
        ∃ f ∈ g'.final, Idx D L.s.ms L.result f ∨ (f = 0 ∧ ∀ i, ¬ Idx D L.s.ms L.result i)) := by
  unfold translate
  cases hl : lengthsOk m I with
  | false =>
    refine ⟨_, _, by rw [translateW, hl, if_neg (by simp)], rfl, ⟨sinv_clear m D M I ms _, .null, ginv_new .., Or.inl rfl⟩,
      fun h => by cases h⟩
  | true =>
    rw [if_pos rfl]
    obtain ⟨ok, s1, e1, e2⟩ := decPush_spec (sinv_clear m D M I ms D.worst) (h := nullHyp M) .null
    obtain ⟨L, g', f1, f2, f3, _⟩ := decLoopW_spec (o := o) (F := fun _ => False) ho hI (safe_of hI hl) (D.maxIter - 1)
      (L := ⟨false, nullHyp M, s1⟩) (g := WordGraph.clear g)
      ⟨⟨e2, .null, fun h => (by cases h), fun _ _ => rfl⟩, ginv_null hI e1, Or.inl rfl⟩
    have htr : translateW o m D M I ms g = some (L, postTrans m D I L g') := by
      rw [translateW, hl, if_pos rfl, e1]
      dsimp only
      rw [f1]; rfl
    refine ⟨L, _, htr, by rw [e1]; exact f2, ?_, ?_⟩
    · unfold postTrans
      split
      · rename_i hcond
        refine ⟨f3.s, f3.reach, ?_, ?_⟩
        · have hx := f3.gi
          refine ⟨wf_of_eq hx.wf rfl rfl rfl rfl, hx.live, hx.idx, ?_, ?_, ?_, ?_, hx.init, hx.null⟩
          · intro st i sc h
            obtain ⟨y, p, h1, h2, h3⟩ := hx.hyp st i sc h
            exact ⟨y, p, h1, h2, h3.path, h3.text, h3.score,
              fun hc => (h3.final hc).imp (fun hf => (WordGraph.mem_setInsert _ _ _).2 (Or.inr hf)) id⟩
          · intro k e h
            obtain ⟨i, p, h1, h2⟩ := hx.stored k e h
            exact ⟨i, p, h1, h2.path, h2.text, h2.score,
              fun hc => (h2.final hc).imp (fun hf => (WordGraph.mem_setInsert _ _ _).2 (Or.inr hf)) id⟩
          · intro i a h
            obtain ⟨p, q, h1⟩ := hx.arcs i a h
            exact ⟨p, q, h1.mono (DictLe.refl _) fun f hf => (WordGraph.mem_setInsert _ _ _).2 (Or.inr hf)⟩
          · intro f hf
            rcases (WordGraph.mem_setInsert _ _ _).1 hf with hf | hf
            · left
              refine ⟨hcond.1, L, _, htr, hcond.2, ?_⟩
              cases hd : lk L.s.ms.dict (D.st L.result.data) with
              | none =>
                right
                rw [hd] at hf
                exact ⟨hf, fun i ⟨sc, h⟩ => by rw [hd] at h; cases h⟩
              | some x =>
                left
                rw [hd] at hf
                exact ⟨x.2, by rw [hd, hf]; rfl⟩
            · rcases hx.final f hf with h | h
              · cases h
              · exact Or.inr h
        · rcases f3.res with h | ⟨i, p, h1, h2⟩
          · exact Or.inl h
          · exact Or.inr ⟨i, p, h1, h2.path, h2.text, h2.score,
              fun hc => (h2.final hc).imp (fun hf => (WordGraph.mem_setInsert _ _ _).2 (Or.inr hf)) id⟩
      · exact ⟨f3.s, f3.reach, f3.gi.weaken fun _ h => h.elim, f3.res⟩
    · intro _ hm hc
      unfold postTrans
      rw [if_pos ⟨hm, hc⟩]
      refine ⟨_, (WordGraph.mem_setInsert _ _ _).2 (Or.inl rfl), ?_⟩
      cases hd : lk L.s.ms.dict (D.st L.result.data) with
      | none => exact Or.inr ⟨rfl, fun i ⟨sc, h⟩ => by rw [hd] at h; cases h⟩
      | some x => exact Or.inl ⟨x.2, by rw [hd]; rfl⟩

end Thot.Search
