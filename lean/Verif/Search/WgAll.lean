import Verif.Search.WgThms

/-!
Property C94: once the search space is exhausted the word graph contains every translation.
-/
namespace Thot.Search
open Thot.StrProc (Str)
open Thot.MultiStack (elems Core SortedOk Outcome push_spec pop_spec empty_iff)
open Thot.AMap (lk)
open Thot.WordGraph (WG Arc Live Path own)

variable {S : Type} [DecidableEq S]

/-- An arc stands for the expansion of `x` that produces `y`. -/
def Arced (m : Mode) (D : Dec S) (M : Model) (I : Input) (ms : MultiStack.MS S HypData) (g : WG) (x y : Hyp) : Prop :=
  ∃ k a, Live g k a ∧ Idx D ms x a.pred ∧ Idx D ms y a.succ ∧
    (∃ t, plainText m I x.data = some t ∧ plainText m I y.data = some (t ++ a.words)) ∧
    a.score = (((y.score + M.heur y.data) - (x.score + M.heur x.data) : Int) : Rat) ∧
    (isComplete I.src.length y.data = true → a.succ ∈ g.final)

theorem Arced.mono {m : Mode} {D : Dec S} {M : Model} {I : Input} {ms ms' : MultiStack.MS S HypData} {g g' : WG} {x y : Hyp}
    (h : Arced m D M I ms g x y) (hg : Grows ms ms' g g') : Arced m D M I ms' g' x y := by
  obtain ⟨k, a, h1, h2, h3, h4, h5, h6⟩ := h
  exact ⟨k, a, hg.arcs _ _ h1, hg.dict.idx h2, hg.dict.idx h3, h4, h5, fun h => hg.final _ (h6 h)⟩

/-- State `st` was dealt with: a complete hypothesis, or an expanded one. -/
def Done (m : Mode) (D : Dec S) (M : Model) (I : Input) (ms : MultiStack.MS S HypData) (g : WG) (st : S) : Prop :=
  ∃ x, Reach m M I x ∧ D.st x.data = st ∧ (isComplete I.src.length x.data = true ∨
    ∃ hs, expandMode m M I x = some hs ∧ ∀ y ∈ hs, Arced m D M I ms g x y)

theorem Done.mono {m : Mode} {D : Dec S} {M : Model} {I : Input} {ms ms' : MultiStack.MS S HypData} {g g' : WG} {st : S}
    (h : Done m D M I ms g st) (hg : Grows ms ms' g g') : Done m D M I ms' g' st := by
  obtain ⟨x, h1, h2, h3⟩ := h
  refine ⟨x, h1, h2, h3.imp id ?_⟩
  rintro ⟨hs, h4, h5⟩
  exact ⟨hs, h4, fun y hy => (h5 y hy).mono hg⟩

/-- Every state is stored, pending, or was dealt with. -/
def XInv (m : Mode) (D : Dec S) (M : Model) (I : Input) (pend : List Hyp) (ms : MultiStack.MS S HypData) (g : WG) : Prop :=
  ∀ st p, lk ms.dict st = some p → (∃ k, ∃ e ∈ elems ms k, e.2.2.state = st) ∨ (∃ x ∈ pend, D.st x.data = st) ∨
    Done m D M I ms g st

/-- What a push in a container with room does. -/
theorem push_roomX {ms ms' : MultiStack.MS S HypData} {x : MultiStack.Hyp S HypData} {ok : Bool} (hc : Core ms)
    (hroom : (elems ms x.cls).length < ms.max) (ho : Outcome ms ms' x ok) :
    (∀ k, ∀ e ∈ elems ms k, (∃ k', ∃ e' ∈ elems ms' k', e'.2.2.state = e.2.2.state)) ∧
    (∃ p, lk ms'.dict x.state = some p) ∧
    (lk ms.dict x.state = none → ∃ k, ∃ e ∈ elems ms' k, e.2.2.state = x.state) ∧
    (∀ k, k ≠ x.cls → elems ms' k = elems ms k) ∧
    (elems ms' x.cls = elems ms x.cls ∨
      ∃ base, base.Sublist (elems ms x.cls) ∧ elems ms' x.cls = MMap.ins x.score (ms.next, x) base) := by
  cases ho with
  | worse i sc h1 h2 h3 h4 _ =>
    exact ⟨fun k e he => ⟨k, e, by rw [h3]; exact he, rfl⟩, ⟨_, by rw [h4]; exact h1⟩, fun h => (by rw [h1] at h; cases h),
      fun k _ => h3 k, Or.inl (h3 _)⟩
  | full _ _ _ _ _ h1 => omega
  | prune t l il sl _ _ _ _ h1 _ _ _ _ _ => omega
  | room h1 h2 h3 h4 h5 h6 =>
    have hx : (x.score, (ms.next, x)) ∈ elems ms' x.cls := by rw [h4, MMap.mem_ins]; exact Or.inl rfl
    refine ⟨?_, ⟨_, by rw [h5, if_pos rfl]⟩, fun _ => ⟨_, _, hx, rfl⟩, h2, Or.inr ⟨_, MultiStack.afterRec_sub ms x.cls _, h4⟩⟩
    intro k e he
    by_cases hk : k = x.cls
    · subst hk
      by_cases hmem : e ∈ MultiStack.afterRec ms x.cls (MultiStack.idxOf ms x.state)
      · exact ⟨x.cls, e, by rw [h4, MMap.mem_ins]; exact Or.inr hmem, rfl⟩
      · refine ⟨x.cls, _, hx, ?_⟩
        unfold MultiStack.afterRec at hmem
        split at hmem
        · rename_i k' hd hrec
          split at hmem
          · rename_i hk'
            subst hk'
            have hhd : e.2.1 = hd := by
              refine Classical.byContradiction fun hne => hmem (List.mem_filter.2 ⟨he, by simpa using hne⟩)
            obtain ⟨e1, he1, hh1, sc, hdict⟩ := hc.rc _ _ _ hrec
            have hee := MultiStack.pairwise_unique (hc.hnd x.cls) he he1 (by rw [hhd, hh1])
            subst hee
            cases hx : lk ms.dict x.state with
            | none =>
              have := hc.didx _ _ hdict
              simp [MultiStack.idxOf, hx] at this
            | some p =>
              have hidx : MultiStack.idxOf ms x.state = p.1 := by simp [MultiStack.idxOf, hx]
              exact (hc.dinj _ _ _ _ hdict hx hidx).symm
          · exact absurd he hmem
        · exact absurd he hmem
    · exact ⟨k, e, by rw [h2 k hk]; exact he, rfl⟩

/-- Nothing is discarded because of its score. -/
structure Keeps (m : Mode) (D : Dec S) (M : Model) (I : Input) : Prop where
  min : ∀ h, Reach m M I h → D.minScore ≤ h.score
  off : D.pruning = false

/-- A push that discards nothing. -/
theorem decPushX {m : Mode} {D : Dec S} {M : Model} {I : Input} (hk : Keeps m D M I) {s s' : DState S} (hs : SInv m D M I s)
    {h : Hyp} (hr : Reach m M I h) (hroom : tot m D M I s.ms < s.ms.max) {ok : Bool}
    (he : decPush D M I.src.length s h = some (ok, s')) {g g' : WG} (hgr : Grows s.ms s'.ms g g') {pend : List Hyp}
    (hX : XInv m D M I pend s.ms g) :
    XInv m D M I pend s'.ms g' ∧ (∃ i, Idx D s'.ms h i) ∧ s'.ms.max = s.ms.max ∧
      tot m D M I s'.ms ≤ tot m D M I s.ms + weight m M I h := by
  obtain ⟨_, d2, _⟩ := decPush_dict hs he
  obtain ⟨ok', s2, x1, x2⟩ := decPush_spec hs hr
  rw [he] at x1; cases x1
  have he2 := he
  unfold decPush at he
  rw [if_pos (hk.min h hr)] at he
  dsimp only at he
  rw [if_neg (by rw [hk.off]; simp)] at he
  obtain ⟨x, hx⟩ : ∃ x, x = stored D M I.src.length h := ⟨_, rfl⟩
  rw [← hx] at he
  obtain ⟨ok2, ms', e1, e2, e3, e4, _, ho⟩ := push_spec hs.core hs.sorted x
  rw [e1] at he
  cases he
  dsimp only at *
  have hlen := length_le_tot m D M I hs.sorted x.cls
  obtain ⟨r1, ⟨⟨pi, psc⟩, r2⟩, r3, r4, r5⟩ := push_roomX hs.core (by omega) ho
  have hst : x.state = D.st h.data := by rw [hx]; rfl
  refine ⟨?_, ⟨pi, psc, by rw [← hst]; exact r2⟩, e4, ?_⟩
  · intro st p hp
    obtain ⟨i, sc⟩ := p
    rcases d2 st i sc hp with ⟨sc', h1⟩ | ⟨h1, h2, _⟩
    · rcases hX st _ h1 with ⟨k, e, h3, h4⟩ | h3 | h3
      · left
        obtain ⟨k', e', h5, h6⟩ := r1 k e h3
        exact ⟨k', e', h5, by rw [h6, h4]⟩
      · exact Or.inr (Or.inl h3)
      · exact Or.inr (Or.inr (h3.mono hgr))
    · left
      rw [h1, ← hst] at h2
      rw [h1, ← hst]
      exact r3 h2
  · have ht := tot_change m D M I hs.sorted e3 (c := x.cls) r4
    rcases r5 with h5 | ⟨base, h5, h6⟩
    · have h2 : subTot m D M I ms' x.cls = subTot m D M I s.ms x.cls := by simp [subTot, h5]
      omega
    · have h2 : subTot m D M I ms' x.cls ≤ weight m M I h + subTot m D M I s.ms x.cls := by
        unfold subTot
        rw [h6, sum_ins]
        have := subTot_sublist m M I D h5
        have hb : back D M I.src.length x = h := by rw [hx, back_stored]
        simp only [hb]
        omega
      omega

/-- The arc added for an expansion. -/
theorem addArcTo_arced {o : WgOpts} {m : Mode} {D : Dec S} {M : Model} {I : Input} (ho : o.enabled = true)
    (hI : m = .trans → FromRaw I) {ms : MultiStack.MS S HypData} {g g' : WG} {p q : Hyp} (hw : WordGraph.WF g)
    {es : List Hyp} (hr : Reach m M I p) (he : expandMode m M I p = some es) (hm : q ∈ es)
    {i j : Nat} (hi : Idx D ms p i) (hj : Idx D ms q j) (ha : addArcTo o m D M I ms g p q = some g')
    (hi0 : i = 0 ∨ i < g.states.length) : Arced m D M I ms g' p q := by
  obtain ⟨isc, hi⟩ := hi
  obtain ⟨jsc, hj⟩ := hj
  unfold addArcTo at ha
  rw [if_pos ho, hi, hj] at ha
  dsimp only at ha
  obtain ⟨a1, a2, a3, a4, a5, a6⟩ := prepareArc_eq M I.src.length i j p q g
  obtain ⟨g0, hg0⟩ : ∃ g0, g0 = prepareArc M I.src.length i j p q g := ⟨_, rfl⟩
  rw [← hg0] at a1 a2 a3 a4 a5 a6 ha
  obtain ⟨g2, t, w, b1, b2, b3, b4, b5, b6, b7, b8, b9, b10⟩ := putArc_spec (o := o) (i := i) (j := j) hI hr he hm
    (wf_of_eq hw a1 a2 a3 a4) (by rw [a3]; simp only [Nat.max_def]; split <;> omega)
  rw [b1] at ha; cases ha
  refine ⟨g.arcs.length, _, ⟨by rw [b5, a1, List.getElem?_concat_length], ?_⟩, ⟨isc, hi⟩, ⟨jsc, hj⟩, ⟨t, b3, b4⟩, rfl, ?_⟩
  · rw [b6, a2, ← hw.pruned, List.getElem?_concat_length]
  · intro hc
    rw [b9]
    exact (a6 j).2 (Or.inr ⟨rfl, hc⟩)

theorem pushAllX {o : WgOpts} {m : Mode} {D : Dec S} {M : Model} {I : Input} {F : Nat → Prop} (ho : o.enabled = true)
    (hI : m = .trans → FromRaw I) (hk : Keeps m D M I) {p : Hyp} {es : List Hyp} (hr : Reach m M I p)
    (he : expandMode m M I p = some es) {pend : List Hyp} :
    ∀ (hs : List Hyp) {s s' : DState S} {g g' : WG}, (∀ h ∈ hs, h ∈ es) → SInv m D M I s → GInv o m D M I F s.ms g →
      Has m D M I s.ms g p → XInv m D M I pend s.ms g → tot m D M I s.ms + (hs.map (weight m M I)).sum ≤ s.ms.max →
      pushAllW o m D M I p hs s g = some (s', g') →
      XInv m D M I pend s'.ms g' ∧ (∀ y ∈ hs, Arced m D M I s'.ms g' p y) ∧ s'.ms.max = s.ms.max ∧
        tot m D M I s'.ms ≤ tot m D M I s.ms + (hs.map (weight m M I)).sum
  | [], s, s', g, g', _, _, _, _, hX, _, h => by
    cases h
    exact ⟨hX, by simp, rfl, by simp⟩
  | q :: hs, s, s', g, g', hsub, h1, h2, h3, hX, hroom, h => by
    simp only [List.map_cons, List.sum_cons] at hroom ⊢
    have hw := weight_pos m M I q
    have hq := hsub q (by simp)
    obtain ⟨ok, s1, e1, e2⟩ := decPush_spec h1 (.step hr he hq)
    obtain ⟨i, pp, k1, k2⟩ := h3
    obtain ⟨g1, f1, f2, f3, f4, f5⟩ := pushGiven_spec ho hI h1 h2 hr he hq k1 k2 e1
    have hgr : Grows s.ms s1.ms g g1 := ⟨f5, f3, f4⟩
    obtain ⟨x1, ⟨j, x2⟩, x3, x4⟩ := decPushX hk h1 (.step hr he hq) (by omega) e1 hgr hX
    have hi0 : i = 0 ∨ i < g.states.length := by
      obtain ⟨sc, h⟩ := k1
      exact h2.idx _ _ _ h
    have harc := addArcTo_arced ho hI h2.wf hr he hq (f5.idx k1) x2 f1 hi0
    have hsub' : ∀ h ∈ hs, h ∈ es := fun h hh => hsub h (by simp [hh])
    have hhas : Has m D M I s1.ms g1 p := Has.mono ⟨i, pp, k1, k2⟩ hgr
    rw [pushAllW, e1] at h
    dsimp only at h
    rw [f1] at h
    dsimp only at h
    obtain ⟨s2, g2, j1, _, _, _, j5⟩ := pushAllW_spec ho hI hr he hs hsub' e2 f2 hhas
    rw [j1] at h; cases h
    obtain ⟨y1, y2, y3, y4⟩ := pushAllX ho hI hk hr he hs hsub' e2 f2 hhas x1 (by omega) j1
    refine ⟨y1, ?_, by omega, by omega⟩
    intro y hy
    rcases List.mem_cons.1 hy with rfl | hy
    · exact harc.mono j5
    · exact y2 y hy

theorem popUpToX {m : Mode} {D : Dec S} {M : Model} {I : Input} {g : WG} : ∀ (k : Nat) {s s' : DState S} {hs pend : List Hyp},
    SInv m D M I s → XInv m D M I pend s.ms g → popUpTo D M I.src.length k s = some (hs, s') →
    XInv m D M I (hs ++ pend) s'.ms g ∧ s'.ms.max = s.ms.max ∧
      tot m D M I s'.ms + (hs.map (weight m M I)).sum = tot m D M I s.ms
  | 0, s, s', hs, pend, _, hX, h => by
    cases h
    exact ⟨hX, rfl, rfl⟩
  | k + 1, s, s', hs, pend, hs1, hX, h => by
    unfold popUpTo at h
    cases he : MultiStack.empty s.ms with
    | true =>
      rw [he, if_pos rfl] at h
      cases h
      exact ⟨hX, rfl, rfl⟩
    | false =>
      rw [he, if_neg (by simp)] at h
      obtain ⟨e, ms', kk, A, r, e1, e2, e3, e4, ed, e5, _, e6, _⟩ := popStored_spec hs1.core hs1.sorted D I.src.length he
      obtain ⟨x, s1, x1, x2, x3⟩ := decPop_spec hs1 he
      rw [x1] at h
      dsimp only at h
      have hx : x = back D M I.src.length e.2.2 ∧ s1 = { s with ms := ms' } := by
        rw [decPop, e1] at x1
        cases x1; exact ⟨rfl, rfl⟩
      have hms : s1.ms = ms' := by rw [hx.2]
      have hek : e ∈ elems s.ms kk := by rw [e5]; simp
      have hgr : Grows s.ms ms' g g := ⟨fun st i sc h => ⟨sc, by rw [ed]; exact h⟩, fun _ _ h => h, fun _ h => h⟩
      have hX1 : XInv m D M I (x :: pend) s1.ms g := by
        rw [hms]
        intro st p hp
        rw [ed] at hp
        rcases hX st p hp with ⟨j, y, h1, h2⟩ | ⟨y, h1, h2⟩ | h1
        · by_cases hj : j = kk
          · subst hj
            rw [e5] at h1
            rcases List.mem_cons.1 h1 with rfl | h1
            · right; left
              refine ⟨x, by simp, ?_⟩
              obtain ⟨y', y1, y2⟩ := hs1.el j y hek
              rw [hx.1, y2, back_stored, ← h2, y2]; rfl
            · exact Or.inl ⟨j, y, by rw [e6, if_pos rfl]; exact h1, h2⟩
          · exact Or.inl ⟨j, y, by rw [e6, if_neg hj]; exact h1, h2⟩
        · exact Or.inr (Or.inl ⟨y, by simp [h1], h2⟩)
        · exact Or.inr (Or.inr (h1.mono hgr))
      have htot : tot m D M I s1.ms + weight m M I x = tot m D M I s.ms := by
        have ht := tot_change m D M I hs1.sorted e3 (c := kk) fun j hj => by rw [e6, if_neg hj]
        have h3 : subTot m D M I s.ms kk = weight m M I x + subTot m D M I ms' kk := by
          unfold subTot
          rw [e5, e6, if_pos rfl, List.map_cons, List.sum_cons, hx.1]
        rw [hms]
        omega
      cases hp : popUpTo D M I.src.length k s1 with
      | none => rw [hp] at h; cases h
      | some r =>
        rw [hp] at h
        obtain ⟨ys, s2⟩ := r
        cases h
        obtain ⟨q1, q2, q3⟩ := popUpToX k x2 hX1 hp
        refine ⟨?_, by rw [q2, hms, e4], ?_⟩
        · intro st p hp
          rcases q1 st p hp with h1 | ⟨y, h1, h2⟩ | h1
          · exact Or.inl h1
          · refine Or.inr (Or.inl ⟨y, ?_, h2⟩)
            simp only [List.mem_append, List.mem_cons] at h1 ⊢
            grind
          · exact Or.inr (Or.inr h1)
        · simp only [List.map_cons, List.sum_cons]
          omega

theorem handleX {o : WgOpts} {m : Mode} {D : Dec S} {M : Model} {I : Input} {F : Nat → Prop} (ho : o.enabled = true)
    (hI : m = .trans → FromRaw I) (hk : Keeps m D M I) (hsafe : Safe m M I) {L L' : Loop S} {g g' : WG}
    (hL : WInv o m D M I F L g) {h : Hyp} {pend : List Hyp} (hr : Reach m M I h) (hh : Has m D M I L.s.ms g h)
    (hX : XInv m D M I (h :: pend) L.s.ms g) {B : Nat} (hB : tot m D M I L.s.ms + weight m M I h + B ≤ L.s.ms.max)
    (he : handleW o m D M I L g h = some (L', g')) :
    XInv m D M I pend L'.s.ms g' ∧ L'.s.ms.max = L.s.ms.max ∧ tot m D M I L'.s.ms + B ≤ L.s.ms.max := by
  have hw := weight_pos m M I h
  unfold handleW at he
  have hdone : ∀ {ms' : MultiStack.MS S HypData} {g' : WG}, XInv m D M I (h :: pend) ms' g' → Done m D M I ms' g' (D.st h.data) →
      XInv m D M I pend ms' g' := by
    intro ms' g' h1 h2 st p hp
    rcases h1 st p hp with h3 | ⟨x, h3, h4⟩ | h3
    · exact Or.inl h3
    · rcases List.mem_cons.1 h3 with rfl | h3
      · right; right; rw [← h4]; exact h2
      · exact Or.inr (Or.inl ⟨x, h3, h4⟩)
    · exact Or.inr (Or.inr h3)
  cases hc : isComplete I.src.length h.data with
  | true =>
    rw [hc, if_pos rfl] at he
    cases hE : L.ended with
    | false =>
      rw [hE, if_pos rfl] at he
      cases he
      exact ⟨hdone hX ⟨h, hr, rfl, Or.inl hc⟩, rfl, by dsimp only; omega⟩
    | true =>
      rw [hE, if_neg (by simp)] at he
      obtain ⟨ok, s', e1, e2⟩ := decPush_spec hL.l.s hr
      rw [e1] at he
      cases he
      obtain ⟨q1, q2⟩ := repush_spec hL.l.s hL.gi hh e1
      obtain ⟨x1, x2, x3, x4⟩ := decPushX hk hL.l.s hr (by omega) e1 q2 hX
      exact ⟨hdone x1 ⟨h, hr, rfl, Or.inl hc⟩, x3, by dsimp only; omega⟩
  | false =>
    rw [hc, if_neg (by simp)] at he
    obtain ⟨hs, e⟩ := hsafe h hr
    rw [e] at he
    dsimp only at he
    have hsub : ∀ x ∈ hs.reverse, x ∈ hs := fun x hx => by simpa using hx
    have hwe := weight_expand hr e
    have hsum : (hs.reverse.map (weight m M I)).sum = (hs.map (weight m M I)).sum := by
      rw [List.map_reverse, List.sum_reverse]
    obtain ⟨s', g2, j1, j2, j3, j4, j5⟩ := pushAllW_spec ho hI hr e hs.reverse hsub hL.l.s hL.gi hh
    rw [j1] at he
    cases he
    obtain ⟨x1, x2, x3, x4⟩ := pushAllX ho hI hk hr e hs.reverse hsub hL.l.s hL.gi hh hX (by omega) j1
    exact ⟨hdone x1 ⟨h, hr, rfl, Or.inr ⟨hs, e, fun y hy => x2 y (by simpa using hy)⟩⟩, x3, by dsimp only; omega⟩

theorem handleAllX {o : WgOpts} {m : Mode} {D : Dec S} {M : Model} {I : Input} {F : Nat → Prop} (ho : o.enabled = true)
    (hI : m = .trans → FromRaw I) (hk : Keeps m D M I) (hsafe : Safe m M I) : ∀ (hs : List Hyp) {L L' : Loop S} {g g' : WG},
    WInv o m D M I F L g → (∀ h ∈ hs, Reach m M I h ∧ Has m D M I L.s.ms g h) → XInv m D M I hs L.s.ms g →
    tot m D M I L.s.ms + (hs.map (weight m M I)).sum ≤ L.s.ms.max → handleAllW o m D M I hs L g = some (L', g') →
    XInv m D M I [] L'.s.ms g' ∧ L'.s.ms.max = L.s.ms.max ∧ tot m D M I L'.s.ms ≤ L.s.ms.max
  | [], L, L', g, g', _, _, hX, hB, he => by
    cases he
    exact ⟨hX, rfl, by simpa using hB⟩
  | x :: xs, L, L', g, g', hL, hr, hX, hB, he => by
    simp only [List.map_cons, List.sum_cons] at hB
    obtain ⟨x1, x2⟩ := hr x (by simp)
    obtain ⟨L1, g1, e1, e2, e3, e4⟩ := handleW_spec ho hI hsafe hL x1 x2
    obtain ⟨f1, f2, f3⟩ := handleX ho hI hk hsafe hL x1 x2 hX (B := (xs.map (weight m M I)).sum) (by omega) e1
    rw [handleAllW, e1] at he
    obtain ⟨q1, q2, q3⟩ := handleAllX ho hI hk hsafe xs e3 (fun y hy => by
      obtain ⟨y1, y2⟩ := hr y (by simp [hy])
      exact ⟨y1, y2.mono e4⟩) f1 (by omega) he
    exact ⟨q1, by omega, by omega⟩

theorem decLoopX {o : WgOpts} {m : Mode} {D : Dec S} {M : Model} {I : Input} {F : Nat → Prop} (ho : o.enabled = true)
    (hI : m = .trans → FromRaw I) (hk : Keeps m D M I) (hsafe : Safe m M I) : ∀ (k : Nat) {L L' : Loop S} {g g' : WG},
    WInv o m D M I F L g → XInv m D M I [] L.s.ms g → tot m D M I L.s.ms ≤ L.s.ms.max →
    decLoopW o m D M I k L g = some (L', g') →
    XInv m D M I [] L'.s.ms g' ∧ L'.s.ms.max = L.s.ms.max ∧ tot m D M I L'.s.ms ≤ L.s.ms.max
  | 0, L, L', g, g', _, hX, hB, he => by cases he; exact ⟨hX, rfl, hB⟩
  | k + 1, L, L', g, g', h, hX, hB, he => by
    unfold decLoopW at he
    cases hE : L.ended with
    | true =>
      rw [hE, if_pos rfl] at he
      cases he; exact ⟨hX, rfl, hB⟩
    | false =>
      rw [hE, if_neg (by simp)] at he
      obtain ⟨hs, s', e1, e2, e3, e4⟩ := popUpTo_spec D.I h.l.s
      obtain ⟨p1, p2, p3⟩ := popUpToW_spec D.I h.l.s h.gi e1
      obtain ⟨x1, x2, x3⟩ := popUpToX D.I h.l.s hX e1
      rw [List.append_nil] at x1
      rw [e1] at he
      have hres : L.result = nullHyp M ∨ Has m D M I s'.ms g L.result := by
        rcases h.res with h1 | h1
        · exact Or.inl h1
        · exact Or.inr (h1.mono p2)
      cases hs with
      | nil =>
        cases he
        exact ⟨x1, x2, by dsimp only; simp at x3; omega⟩
      | cons x xs =>
        dsimp only at he
        have hW : WInv o m D M I F ⟨false, L.result, s'⟩ g := ⟨⟨e2, h.l.res, fun h => (by cases h), h.l.other⟩, p1, hres⟩
        have hR : ∀ y ∈ x :: xs, Reach m M I y ∧ Has m D M I s'.ms g y := fun y hy => ⟨e3 y hy, p3 y hy⟩
        obtain ⟨L1, g1, f1, f2, f3, f4⟩ := handleAllW_spec ho hI hsafe (x :: xs) hW hR
        obtain ⟨y1, y2, y3⟩ := handleAllX ho hI hk hsafe (x :: xs) hW hR x1 (by dsimp only; omega) f1
        rw [f1] at he
        dsimp only at y2 y3
        obtain ⟨z1, z2, z3⟩ := decLoopX ho hI hk hsafe k f3 y1 (by omega) he
        exact ⟨z1, by omega, by omega⟩

theorem xsession {o : WgOpts} {m : Mode} {D : Dec S} {M : Model} {I : Input} (ho : o.enabled = true)
    (hI : m = .trans → FromRaw I) (hl : lengthsOk m I = true) (hk : Keeps m D M I) {ms : MultiStack.MS S HypData} {g : WG}
    (hmax : weight m M I (nullHyp M) ≤ ms.max) {L : Loop S} {g1 : WG} (h : WSession o m D M I ms g L g1) :
    XInv m D M I [] L.s.ms g1 ∧ L.s.ms.max = ms.max ∧ tot m D M I L.s.ms ≤ ms.max ∧ ∃ i, Idx D L.s.ms (nullHyp M) i := by
  induction h with
  | @first L g1 h =>
    rw [translateW, hl, if_pos rfl] at h
    obtain ⟨ok, s1, e1, e2⟩ := decPush_spec (sinv_clear m D M I ms D.worst) (h := nullHyp M) .null
    rw [e1] at h
    dsimp only at h
    have hX0 : XInv m D M I [] (MultiStack.clearAll ms) (WordGraph.clear g) := fun st p hp => (by cases hp)
    have ht0 : tot m D M I (MultiStack.clearAll ms) = 0 := rfl
    have hm0 : (MultiStack.clearAll ms).max = ms.max := rfl
    have hw := weight_pos m M I (nullHyp M)
    obtain ⟨d1, _, _⟩ := decPush_dict (sinv_clear m D M I ms D.worst) e1
    obtain ⟨x1, ⟨xi, x2⟩, x3, x4⟩ := decPushX hk (sinv_clear m D M I ms D.worst) .null (by dsimp only; omega) e1
      (g := WordGraph.clear g) (g' := WordGraph.clear g) ⟨d1, fun _ _ h => h, fun _ h => h⟩ hX0
    have hW : WInv o m D M I (fun _ => False) ⟨false, nullHyp M, s1⟩ (WordGraph.clear g) :=
      ⟨⟨e2, .null, fun h => (by cases h), fun _ _ => rfl⟩, ginv_null hI e1, Or.inl rfl⟩
    obtain ⟨L', g', f1, f2, f3, f4⟩ := decLoopW_spec (o := o) ho hI (safe_of (M := M) hI hl) (D.maxIter - 1) hW
    rw [f1] at h
    cases h
    dsimp only at x3
    have x4' : tot m D M I s1.ms ≤ weight m M I (nullHyp M) := by
      refine Nat.le_trans x4 ?_
      show tot m D M I (MultiStack.clearAll ms) + _ ≤ _
      rw [ht0, Nat.zero_add]
      exact Nat.le_refl _
    obtain ⟨y1, y2, y3⟩ := decLoopX ho hI hk (safe_of hI hl) (D.maxIter - 1) hW x1 (by dsimp only; omega) f1
    dsimp only at y2 y3
    refine ⟨?_, by rw [y2, x3, hm0], by rw [x3, hm0] at y3; exact y3, xi, f4.dict.idx x2⟩
    intro st p hp
    have hgr : Grows L'.s.ms L'.s.ms g' (postTrans m D I L' g') := by
      refine ⟨DictLe.refl _, ?_, ?_⟩
      · unfold postTrans; split <;> exact fun _ _ h => h
      · unfold postTrans
        split
        · exact fun f hf => (WordGraph.mem_setInsert _ _ _).2 (Or.inr hf)
        · exact fun _ h => h
    rcases y1 st p hp with h1 | h1 | h1
    · exact Or.inl h1
    · exact Or.inr (Or.inl h1)
    · exact Or.inr (Or.inr (h1.mono hgr))
  | @next L L' g1 g2 h1 h2 ih =>
    obtain ⟨i1, i2, i3, ii, i4⟩ := ih
    obtain ⟨h, _, _⟩ := wsession_spec ho hI hl h1
    obtain ⟨L2, g2', e1, _, _, e4⟩ := nextTransW_spec ho hI hl h
    rw [h2] at e1; cases e1
    have hW : WInv o m D M I (Extra o m D M I ms g) ⟨false, nullHyp M, { L.s with best := D.worst }⟩ g1 :=
      ⟨⟨⟨h.s.core, h.s.sorted, h.s.el⟩, .null, fun h => (by cases h), fun _ _ => rfl⟩, h.gi, Or.inl rfl⟩
    obtain ⟨y1, y2, y3⟩ := decLoopX ho hI hk (safe_of hI hl) (D.maxIter - 1) hW i1 (by dsimp only; omega) h2
    dsimp only at y2 y3
    exact ⟨y1, by omega, by omega, ii, e4.dict.idx i4⟩

/-- In a graph where every state was dealt with, every hypothesis has a path. -/
theorem reach_path {m : Mode} {D : Dec S} {M : Model} {I : Input} (hI : m = .trans → FromRaw I) (hct : WgContract m D M I)
    {ms : MultiStack.MS S HypData} {g : WG} (hdone : ∀ st p, lk ms.dict st = some p → Done m D M I ms g st)
    (hnull : Idx D ms (nullHyp M) 0) {c : Hyp} (hc : Reach m M I c) :
    ∃ p i, Idx D ms c i ∧ Path (Live g) WordGraph.initialState p i ∧ plainText m I c.data = some (pathWords p) ∧
      (((nullHyp M).score + M.heur nullData : Int) : Rat) + WordGraph.score own p = ((c.score + M.heur c.data : Int) : Rat) ∧
      (isComplete I.src.length c.data = true → c = nullHyp M ∨ i ∈ g.final ∧ p ≠ []) := by
  induction hc with
  | null =>
    have := spells_null (m := m) (M := M) hI g
    exact ⟨[], 0, hnull, this.path, this.text, this.score, fun _ => Or.inl rfl⟩
  | @step c c' hs hr he hm ih =>
    obtain ⟨p, i, ⟨isc, h1⟩, h2, h3, h4, _⟩ := ih
    obtain ⟨x, x1, x2, x3⟩ := hdone _ _ h1
    obtain ⟨gs, y, c1, c2, c3, c4, c5⟩ := hct.step c x hs c' hr x1 x2.symm he hm
    have hxc : isComplete I.src.length x.data = false := step_incomplete x1 c1 c2
    obtain ⟨gs', k1, k2⟩ := x3.resolve_left (by rw [hxc]; simp)
    rw [c1] at k1; cases k1
    obtain ⟨n, a, a1, ⟨psc, a2⟩, ⟨ssc, a3⟩, ⟨t, a4, a5⟩, a6, a7⟩ := k2 y c2
    have hr' : Reach m M I c' := .step hr he hm
    have hpi : i = a.pred := by
      rw [x2] at a2
      have := h1.symm.trans a2
      cases this; rfl
    obtain ⟨tc, w, w1, w2, _⟩ := text_step hI hr he hm
    have hwa : w = a.words := by
      have h := c5 tc w w1 w2 t a4
      rw [a5] at h
      exact (List.append_cancel_left (Option.some.inj h)).symm
    refine ⟨p ++ [(n, a)], a.succ, ⟨ssc, by rw [c3]; exact a3⟩, ?_, ?_, ?_, fun hcc => Or.inr ⟨?_, by simp⟩⟩
    · subst hpi; exact h2.snoc a1
    · rw [pathWords_snoc, w2, hwa]
      rw [h3] at w1; cases w1; rfl
    · rw [WordGraph.score_snoc, ← Rat.add_assoc, h4]
      simp only [own]
      rw [a6, ← Rat.intCast_add]
      congr 1
      have k1 := hct.heur c x hr x1 x2.symm
      have k2 := hct.heur c' y hr' (.step x1 c1 c2) c3
      omega
    · exact a7 (by rw [← hct.complete c' y hr' (.step x1 c1 c2) c3]; exact hcc)

/-- If nothing is discarded (no pruning, room for every hypothesis) and the search goes on until nothing is left, then the
word graph contains every translation, with its score. -/
theorem C94_exhaustive {o : WgOpts} {m : Mode} {D : Dec S} {M : Model} {I : Input} (ho : o.enabled = true)
    (hI : m = .trans → FromRaw I) (hl : lengthsOk m I = true) (hct : WgContract m D M I)
    (hmin : ∀ h, Reach m M I h → D.minScore ≤ h.score) (hoff : D.pruning = false) {ms : MultiStack.MS S HypData} {g : WG}
    (hmax : weight m M I (nullHyp M) ≤ ms.max) {L : Loop S} {g1 : WG} (h : WSession o m D M I ms g L g1)
    (hend : MultiStack.empty L.s.ms = true) {c : Hyp} (hr : Reach m M I c) (hc : isComplete I.src.length c.data = true) :
    ∃ f p, f ∈ g1.final ∧ Path (Live g1) WordGraph.initialState p f ∧ plainText m I c.data = some (pathWords p) ∧
      g1.init + WordGraph.score own p = ((c.score + M.heur c.data : Int) : Rat) := by
  obtain ⟨h1, _, _⟩ := wsession_spec ho hI hl h
  obtain ⟨x1, _, _, i, isc, x2⟩ := xsession ho hI hl ⟨hmin, hoff⟩ hmax h
  obtain ⟨p, i, p1, p2, p3, p4, p5⟩ := reach_path hI hct (fun st p hp => by
    rcases x1 st p hp with ⟨k, e, h2, _⟩ | ⟨x, h2, _⟩ | h2
    · rw [(empty_iff h1.s.sorted).1 hend k] at h2; cases h2
    · cases h2
    · exact h2) (h1.gi.null _ _ x2) hr
  obtain ⟨q1, q2⟩ := (p5 hc).resolve_left (null_incomplete' M hl hc)
  refine ⟨i, p, q1, p2, p3, ?_⟩
  rw [h1.gi.init hct.null (path_ne p2 q2), p4]

end Thot.Search
