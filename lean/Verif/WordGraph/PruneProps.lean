import Verif.WordGraph.BuildProps

/-! # Pruning (C58) -/

namespace Thot.WordGraph

/-- The decision taken by the loop. -/
def dec (g : WG) (prev rest : List Score) (bound : Score) (i : Nat) : Bool :=
  match arc g i with
  | none => false
  | some a =>
    match prev[a.pred]?, rest[a.succ]? with
    | some p, some r => decide (p + a.score + r < bound)
    | _, _ => false

theorem pruneArc_ok {g : WG} (hw : WF g) {prev rest : List Score} {bound : Score} (hp : prev.length = g.states.length)
    (hr : rest.length = g.states.length) (i : Nat) (hi : i < g.arcs.length) (st : List Bool × Nat)
    (hst : st.1.length = g.arcs.length) :
    pruneArc g prev rest bound i st =
      some (st.1.set i (dec g prev rest bound i), st.2 + if dec g prev rest bound i then 1 else 0) := by
  unfold pruneArc dec arc
  have ha : g.arcs[i]? = some g.arcs[i] := List.getElem?_eq_getElem hi
  have h1 : g.arcs[i].pred < prev.length := by rw [hp]; exact hw.pred i _ ha
  have h2 : g.arcs[i].succ < rest.length := by rw [hr]; exact hw.succ i _ ha
  rw [ha]
  simp only [List.getElem?_eq_getElem h1, List.getElem?_eq_getElem h2, hst, hi, if_true]
  by_cases h3 : prev[g.arcs[i].pred] + g.arcs[i].score + rest[g.arcs[i].succ] < bound
  · simp [h3]
  · simp [h3]

theorem pruneLoop_ok {g : WG} (hw : WF g) {prev rest : List Score} {bound : Score} (hp : prev.length = g.states.length)
    (hr : rest.length = g.states.length) : ∀ (l : List Nat) (st : List Bool × Nat), (∀ i ∈ l, i < g.arcs.length) →
    st.1.length = g.arcs.length →
    ∃ fl, pruneLoop g prev rest bound l st = some (fl, st.2 + (l.filter (dec g prev rest bound)).length) ∧
      fl.length = g.arcs.length ∧
      ∀ i : Nat, fl[i]? = if i ∈ l then some (dec g prev rest bound i) else st.1[i]? := by
  intro l
  induction l with
  | nil => intro st _ h; exact ⟨st.1, rfl, h, by simp⟩
  | cons i l ih =>
    intro st hl h
    have hi := hl i (List.mem_cons_self ..)
    obtain ⟨fl, h1, h2, h3⟩ := ih (st.1.set i (dec g prev rest bound i), st.2 + if dec g prev rest bound i then 1 else 0)
      (fun j hj => hl j (List.mem_cons_of_mem _ hj)) (by simpa using h)
    refine ⟨fl, ?_, h2, ?_⟩
    · rw [pruneLoop, pruneArc_ok hw hp hr i hi st h]
      simp only
      rw [h1]
      congr 2
      cases hd : dec g prev rest bound i <;> simp [hd] <;> omega
    · intro j
      rw [h3]
      simp only
      rw [getElem?_set' _ _ _ _ (by rw [h]; exact hi)]
      by_cases hj : j ∈ l
      · simp [hj]
      · by_cases hji : j = i
        · simp [hji]
        · simp [hj, hji]

/-- The lists of incoming arcs contain each arc once. -/
theorem toPred_perm {g : WG} (hw : WF g) : (g.states.flatMap StateData.toPred).Perm (List.range g.arcs.length) := by
  rw [List.perm_ext_iff_of_nodup _ List.nodup_range]
  · intro i
    rw [List.mem_flatMap]
    constructor
    · rintro ⟨d, hd, hi⟩
      obtain ⟨s, hs⟩ := List.getElem?_of_mem hd
      rw [hw.toPred s d hs] at hi
      exact (List.mem_filter.1 hi).1
    · intro hi
      have hil := List.mem_range.1 hi
      have ha : g.arcs[i]? = some g.arcs[i] := List.getElem?_eq_getElem hil
      have hsu := hw.succ i _ ha
      refine ⟨g.states[g.arcs[i].succ], List.getElem_mem hsu, ?_⟩
      rw [hw.toPred _ _ (List.getElem?_eq_getElem hsu)]
      rw [List.mem_filter]
      exact ⟨hi, by simp [ha]⟩
  · unfold List.Nodup
    rw [List.pairwise_flatMap]
    constructor
    · intro d hd
      obtain ⟨s, hs⟩ := List.getElem?_of_mem hd
      rw [hw.toPred s d hs]
      exact List.Pairwise.filter _ List.nodup_range
    · rw [List.pairwise_iff_getElem]
      intro s t hs ht hst x hx y hy hxy
      subst hxy
      rw [hw.toPred s _ (List.getElem?_eq_getElem hs)] at hx
      rw [hw.toPred t _ (List.getElem?_eq_getElem ht)] at hy
      have h1 := (List.mem_filter.1 hx).2
      have h2 := (List.mem_filter.1 hy).2
      simp only [beq_iff_eq] at h1 h2
      rw [h1] at h2
      simp only [Option.some.injEq] at h2
      omega

/-- **C58 (pruning).** On a topologically ordered graph without positive arc scores whose initial state
has score 0, if some complete path (not pruned) has a score that the threshold does not bring down to
`SMALL_SCORE`, then `prune` computes the best complete score `B` and marks as pruned exactly the arcs `a`
such that every complete path made of `a` and arcs that were not pruned scores less than `B + log
threshold`; it returns their number and changes nothing else. -/
theorem C58_prune_partial {g : WG} (ht : Topo g) (hw : WF g) (hf : FinalOk g) (hn : NonPos g) (hi : g.init = 0) (logT : Score)
    (hT : logT ≤ 0) (p0 : List (Nat × Arc)) (hp0 : Complete g (Live g) p0) (hbig : small < score own p0 + logT)
    (hne : g.arcs ≠ []) :
    ∃ g' n B, prune g (some logT) = some (g', n) ∧
      (∃ p, Complete g (Live g) p ∧ B = score own p) ∧ (∀ p, Complete g (Live g) p → score own p ≤ B) ∧
      (∀ (i : Nat) (a : Arc), g.arcs[i]? = some a →
        (g'.pruned[i]? = some true ∨ g'.pruned[i]? = some false) ∧
        (g'.pruned[i]? = some true ↔ ∀ p1 p2 f, Path (Live g) initialState p1 a.pred → f ∈ g.final →
          Path (Live g) a.succ p2 f → score own p1 + a.score + score own p2 < B + logT)) ∧
      n = (g'.pruned.filter (· = true)).length ∧ g' = { g with pruned := g'.pruned } := by
  have hs0 : initialState < g.states.length := by
    obtain ⟨f, hf1, hf2⟩ := hp0
    rcases hf2.inv with ⟨-, h⟩ | ⟨i, a, p', -, h, h2, -⟩
    · rw [← h]; exact hf f hf1
    · rw [h]; exact hw.pred i a h2.1
  obtain ⟨st, h1, h2⟩ := calcPrev_ok ht hw hne initialState hs0 [] []
  rw [eff_nil] at h2
  have hb0 : baseScore g initialState = 0 := by simp [baseScore, hi]
  rw [hb0] at h2
  obtain ⟨rest, hr1, hr2, hr3⟩ := calcRest_ok ht hw hf
  rw [hi] at hr2
  have hall : ∀ i a, Allowed g [] i a ↔ Live g i a := fun i a => ⟨fun h => h.1, fun h => ⟨h, by simp⟩⟩
  have hlo : ∀ p t v, Path (Live g) initialState p t → st.prev[t]? = some v → score own p ≤ v := by
    intro p t v hp hv
    have := h2.lo t p v ((path_below_all fun _ _ => allowed_arc).2 (hp.mono fun i a h => (hall i a).2 h)) hv
    rwa [Rat.zero_add] at this
  have hhi : ∀ t v, st.prev[t]? = some v → small < v →
      ∃ p, Path (Live g) initialState p t ∧ v = score own p := by
    intro t v hv hsm
    rcases chain_all ht h2 t v hv with ⟨q, u, h3, h4⟩ | ⟨p, h3, h4, -⟩
    · have := score_nonpos hn.own h3
      exfalso; grind
    · exact ⟨p, h3.mono fun i a h => (hall i a).1 h, by rw [h4, Rat.zero_add]⟩
  have hple : ∀ (t : Nat) (v : Score), st.prev[t]? = some v → v ≤ 0 := by
    intro t v hv
    rcases Classical.em (small < v) with h | h
    · obtain ⟨p, h3, h4⟩ := hhi t v hv h
      rw [h4]; exact score_nonpos hn.own h3
    · have : small ≤ 0 := by decide +kernel
      grind
  have hrlo : ∀ t p f x, f ∈ g.final → Path (Live g) t p f → rest[t]? = some x → score own p ≤ x := by
    intro t p f x hf' hp hx
    have := hr2.lo t p f x hf' (path_from_zero.2 hp) hx
    rwa [Rat.zero_add] at this
  have hrhi : ∀ t x, rest[t]? = some x → small < x → ∃ p f, f ∈ g.final ∧ Path (Live g) t p f ∧ x = score own p := by
    intro t x hx hsm
    rcases hr2.hi t x hx with ⟨p, f, h4, h5, h6⟩ | ⟨q, u, h4, h5⟩
    · exact ⟨p, f, h4, path_from_zero.1 h5, by rw [h6, Rat.zero_add]⟩
    · have := score_nonpos hn.own (path_from_zero.1 h4)
      exfalso; grind
  have hrle : ∀ (t : Nat) (v : Score), rest[t]? = some v → v ≤ 0 := by
    intro t v hv
    rcases Classical.em (small < v) with h | h
    · obtain ⟨p, f, -, h3, h4⟩ := hrhi t v hv h
      rw [h4]; exact score_nonpos hn.own h3
    · have : small ≤ 0 := by decide +kernel
      grind
  -- the best score
  obtain ⟨r, hb, hb1, hb2, hb3⟩ := bestFinal_ok (prev := st.prev) g.final (initialState, small)
    (fun f h => by rw [h2.lenP]; exact hf f h)
  have hmax : ∀ p, Complete g (Live g) p → score own p ≤ r.2 := by
    rintro p ⟨f, hf', hp⟩
    obtain ⟨v, hv⟩ : ∃ v, st.prev[f]? = some v := ⟨_, List.getElem?_eq_getElem (by rw [h2.lenP]; exact hf f hf')⟩
    exact Rat.le_trans (hlo p f v hp hv) (hb3 f hf' v hv)
  have hB0 := hmax p0 hp0
  have hatt : ∃ p, Complete g (Live g) p ∧ r.2 = score own p := by
    rcases hb2 with rfl | ⟨hb4, hb5, hb6⟩
    · simp only at hB0; exfalso; grind
    · simp only at hb6
      obtain ⟨p, h3, h4⟩ := hhi r.1 r.2 hb5 hb6
      exact ⟨p, ⟨r.1, hb4, h3⟩, h4⟩
  have hbound : small < r.2 + logT := by grind
  obtain ⟨fl, hl1, hl2, hl3⟩ := pruneLoop_ok (bound := r.2 + logT) hw h2.lenP hr2.len (g.states.flatMap StateData.toPred)
    (g.pruned, 0) (fun i h => List.mem_range.1 ((toPred_perm hw).mem_iff.1 h)) hw.pruned
  have hfl : ∀ i : Nat, i < g.arcs.length → fl[i]? = some (dec g st.prev rest (r.2 + logT) i) := by
    intro i hi
    rw [hl3, if_pos ((toPred_perm hw).mem_iff.2 (List.mem_range.2 hi))]
  have hfl' : fl = (List.range g.arcs.length).map (dec g st.prev rest (r.2 + logT)) := by
    apply List.ext_getElem?
    intro i
    by_cases hi : i < g.arcs.length
    · rw [hfl i hi]; simp [hi]
    · rw [List.getElem?_eq_none_iff.2 (by omega), List.getElem?_eq_none_iff.2 (by simp; omega)]
  refine ⟨{ g with pruned := fl },
    0 + ((g.states.flatMap StateData.toPred).filter (dec g st.prev rest (r.2 + logT))).length, r.2, ?_, hatt, hmax, ?_, ?_, rfl⟩
  · simp only [prune, pruneArcs, hr1, calcPrevScores, h1, hb, hl1, Option.map_some]
  · intro i a ha
    have hil := (List.getElem?_eq_some_iff.1 ha).1
    obtain ⟨pv, hpv⟩ : ∃ v, st.prev[a.pred]? = some v :=
      ⟨_, List.getElem?_eq_getElem (by rw [h2.lenP]; exact hw.pred i a ha)⟩
    obtain ⟨rv, hrv⟩ : ∃ v, rest[a.succ]? = some v :=
      ⟨_, List.getElem?_eq_getElem (by rw [hr2.len]; exact hw.succ i a ha)⟩
    have hd : dec g st.prev rest (r.2 + logT) i = decide (pv + a.score + rv < r.2 + logT) := by
      simp only [dec, arc, ha, hpv, hrv]
    have has : a.score ≤ 0 := hn a (List.mem_of_getElem? ha)
    simp only
    rw [hfl i hil, hd]
    refine ⟨by cases decide (pv + a.score + rv < r.2 + logT) <;> simp, ?_⟩
    simp only [Option.some.injEq, decide_eq_true_iff]
    constructor
    · intro h p1 p2 f hp1 hf' hp2
      have := hlo p1 _ pv hp1 hpv
      have := hrlo _ p2 f rv hf' hp2 hrv
      grind
    · intro h
      apply Classical.byContradiction
      intro hc
      have h5 := hple _ _ hpv
      have h6 := hrle _ _ hrv
      obtain ⟨p1, hp1, e1⟩ := hhi _ _ hpv (by grind)
      obtain ⟨p2, f, hf', hp2, e2⟩ := hrhi _ _ hrv (by grind)
      have := h p1 p2 f hp1 hf' hp2
      grind
  · simp only [Nat.zero_add]
    rw [((toPred_perm hw).filter _).length_eq, hfl', List.filter_map, List.length_map]
    congr 1
    apply List.filter_congr
    intro i _
    simp [Function.comp]

/-- **C58 (what survives).** Under the same conditions, the arcs of every complete path whose score is
within the threshold of the best score are not pruned; in particular those of every best path. -/
theorem C58_survivors {g : WG} (ht : Topo g) (hw : WF g) (hf : FinalOk g) (hn : NonPos g) (hi : g.init = 0) (logT : Score)
    (hT : logT ≤ 0) (p0 : List (Nat × Arc)) (hp0 : Complete g (Live g) p0) (hbig : small < score own p0 + logT)
    (hne : g.arcs ≠ []) :
    ∃ g' n, prune g (some logT) = some (g', n) ∧
      ∀ p, Complete g (Live g) p → (∀ q, Complete g (Live g) q → score own q + logT ≤ score own p) →
        Complete g' (Live g') p := by
  obtain ⟨g', n, B, h1, ⟨pb, h2, h3⟩, -, h4, -, h5⟩ := C58_prune_partial ht hw hf hn hi logT hT p0 hp0 hbig hne
  refine ⟨g', n, h1, ?_⟩
  rintro p ⟨f, hf', hp⟩ hq
  have hfin : g'.final = g.final := by rw [h5]
  have harc : g'.arcs = g.arcs := by rw [h5]
  refine ⟨f, by rw [hfin]; exact hf', hp.restrict ?_⟩
  rintro ⟨i, a⟩ he
  obtain ⟨q1, q2, hq12⟩ := List.append_of_mem he
  subst hq12
  obtain ⟨t, hp1, hp2⟩ := hp.split
  rcases hp2.inv with ⟨h, -⟩ | ⟨i', a', p', h, h6, h7, h8⟩
  · cases h
  · cases h
    subst h6
    refine ⟨by rw [harc]; exact h7.1, ?_⟩
    obtain ⟨h9, h10⟩ := h4 i a h7.1
    rcases h9 with h9 | h9
    · have := h10.1 h9 q1 q2 f hp1 hf' h8
      have h11 := hq pb h2
      rw [score_append] at h11
      simp only [score, own] at h11
      exfalso
      grind
    · exact h9

/-- **C58 (unlimited density).** With an unlimited density every pruning mark is removed. -/
theorem C58_unlimited (g : WG) : ∃ g', prune g none = some (g', 0) ∧ g' = { g with pruned := g'.pruned } ∧
    g'.pruned = List.replicate g.pruned.length false := by
  refine ⟨_, rfl, rfl, ?_⟩
  simp [List.map_const']

/-- The full claim: whatever the score of the initial state, a best complete path survives pruning with
a threshold of at most one. -/
def C58_full : Prop :=
  ∀ g : WG, Topo g → WF g → FinalOk g → NonPos g → ∀ logT ≤ 0, ∀ p0, Complete g (Live g) p0 →
    small < g.init + score own p0 + logT → g.arcs ≠ [] →
    ∃ g' n, prune g (some logT) = some (g', n) ∧
      ∀ p, Complete g (Live g) p → (∀ q, Complete g (Live g) q → score own q ≤ score own p) → Complete g' (Live g') p

/-- The full claim is false: the score of the initial state is counted once in the best score and twice
in the score of each arc, so that with a score of -1 for the initial state a threshold of 1 prunes the
only path of this graph. -/
theorem C58_counterexample : ¬ C58_full := by
  intro h
  let g : WG := ⟨[⟨0, 1, -2, []⟩], [false], [⟨[], [0]⟩, ⟨[0], []⟩], [1], -1, [], [[]]⟩
  have hlive : Live g 0 ⟨0, 1, -2, []⟩ := ⟨rfl, rfl⟩
  have hp : Complete g (Live g) [(0, ⟨0, 1, -2, []⟩)] := ⟨1, by decide, Path.cons (a := ⟨0, 1, -2, []⟩) hlive (.nil _)⟩
  have hu : ∀ q, Complete g (Live g) q → q = [(0, ⟨0, 1, -2, []⟩)] := by
    rintro q ⟨f, hf, hq⟩
    have hf1 : f = 1 := by simpa [g] using hf
    subst hf1
    rcases hq.inv with ⟨-, h⟩ | ⟨i, a, p', rfl, h1, h2, h3⟩
    · cases h
    · have h4 := h2.1
      match i with
      | i + 1 => simp [g] at h4
      | 0 =>
        simp [g] at h4
        subst h4
        rcases h3.inv with ⟨rfl, -⟩ | ⟨i', a', p'', -, h5, h6, -⟩
        · rfl
        · have h7 := List.mem_of_getElem? h6.1
          simp [g] at h7
          subst h7
          simp at h5
  obtain ⟨g', n, h1, h2⟩ := h g (topo_of (by decide +kernel)) (wf_of (by decide) (by decide) (by decide) (by decide)
    (by decide +kernel) (by decide +kernel)) (by unfold FinalOk; decide) (by unfold NonPos; decide +kernel) 0 (by decide) _ hp
    (by decide +kernel) (by decide)
  have he : prune g (some 0) = some ({ g with pruned := [true] }, 1) := by decide +kernel
  rw [he] at h1
  cases h1
  obtain ⟨f, -, h3⟩ := h2 _ hp (fun q hq => by rw [hu q hq]; exact Rat.le_refl)
  have := (h3.mem _ (List.mem_cons_self ..)).2
  simp at this

/-- The diamond with score 0 for the initial state and no pruned arcs: a threshold with logarithm -1/2
prunes the four arcs that are not on the best path `0→3`. -/
example : prune { exDiamond with init := 0, pruned := List.replicate 5 false } (some (-1/2)) =
    some ({ exDiamond with init := 0, pruned := [true, true, true, true, false] }, 4) := by decide +kernel

/-- The hypotheses of `C58_prune_partial` hold for it. -/
example : ∃ p0, Complete { exDiamond with init := 0 } (Live { exDiamond with init := 0 }) p0 ∧
    small < score own p0 + (-1/2) :=
  ⟨[(0, ⟨0, 1, -1, [['a']]⟩), (2, ⟨1, 3, -2, [['c']]⟩)],
    ⟨3, by decide, .cons (a := ⟨0, 1, -1, [['a']]⟩) ⟨rfl, rfl⟩ (.cons (a := ⟨1, 3, -2, [['c']]⟩) ⟨rfl, rfl⟩ (.nil _))⟩,
    by decide +kernel⟩

end Thot.WordGraph
