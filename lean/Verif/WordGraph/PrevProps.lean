import Verif.WordGraph.Rest

/-! # Previous scores, best paths and rest scores of word graphs (C55, C56, C57) -/

namespace Thot.WordGraph

/-- `v` is the greatest value of `b + score` over the paths of arcs `P` from `s` to `t`. -/
def IsBest (P : Nat → Arc → Prop) (b : Score) (s t : Nat) (v : Score) : Prop :=
  (∃ p, Path P s p t ∧ v = b + score own p) ∧ ∀ p, Path P s p t → b + score own p ≤ v

/-- No arc of the graph has a positive score (scores are logarithms of probabilities). -/
def NonPos (g : WG) : Prop := ∀ a ∈ g.arcs, a.score ≤ 0

theorem eff_nil (g : WG) : eff g [] = own := by
  funext i a; simp [eff, effScore, altAppliable, own]

theorem NonPos.own {g : WG} (h : NonPos g) : ∀ i a, Live g i a → WordGraph.own i a ≤ 0 :=
  fun _ _ hl => h _ (List.mem_of_getElem? hl.1)

/-- The best of finitely many paths exists as soon as one path exists: a value attained or bounded from
above by `c`. -/
theorem chain_all {g : WG} (ht : Topo g) {ex : List Nat} {w : Nat → Arc → Score} {s : Nat} {b : Score}
    {st : PrevSt} (h : PInv g ex w s b g.arcs.length st) (t : Nat) (v : Score) (hv : st.prev[t]? = some v) :
      (∃ q u, Path (Live g) u q t ∧ v = small + score w q) ∨
      (∃ p, Path (Allowed g ex) s p t ∧ v = b + score w p ∧
        followBest st.best s g.arcs.length t = some (p.map Prod.snd).reverse) := by
  rcases h.chain ht g.arcs.length t v (fun _ _ _ _ h => h) hv with h | ⟨p, h1, h2, h3⟩
  · exact Or.inl h
  · exact Or.inr ⟨p, h1, h2, h3 _ (Nat.le_refl _)⟩

/-- **C55 (partial).** `calcPrevScores` on a topologically ordered word graph.  The score of a state is
never below that of an allowed path (not pruned, not excluded) that leads to it, and it is either the
score of such a path or a `small` score plus the score of some path.  Missing: exactness, which needs that
no arc has a positive score (`C55_prevScores_exact`) and is false in general (`C55_counterexample`). -/
theorem C55_prevScores_partial {g : WG} (ht : Topo g) (hw : WF g) (hne : g.arcs ≠ []) (s : Nat)
    (hs : s < g.states.length) (ex : List Nat) :
    ∃ prev best, calcPrevScores g s ex = some (prev, best) ∧ prev.length = g.states.length ∧
      ∀ (t : Nat) (v : Score), prev[t]? = some v →
        (∀ p, Path (Allowed g ex) s p t → baseScore g s + score own p ≤ v) ∧
        ((∃ p, Path (Allowed g ex) s p t ∧ v = baseScore g s + score own p) ∨
          (∃ q u, Path (Live g) u q t ∧ v = small + score own q)) := by
  obtain ⟨st, h1, h2⟩ := calcPrev_ok ht hw hne s hs ex []
  rw [eff_nil] at h2
  refine ⟨st.prev, st.best, h1, h2.lenP, ?_⟩
  intro t v hv
  refine ⟨fun p hp => h2.lo t p v ((path_below_all fun _ _ => allowed_arc).2 hp) hv, ?_⟩
  rcases chain_all ht h2 t v hv with h | ⟨p, h3, h4, -⟩
  · exact Or.inr h
  · exact Or.inl ⟨p, h3, h4⟩

/-- **C55 (exact scores).** When no arc has a positive score, the score of the starting state is its own
score, and the score of any other state is the best score of the allowed paths from the starting state,
cut at `SMALL_SCORE`; it is `SMALL_SCORE` when there is no such path. -/
theorem C55_prevScores_exact {g : WG} (ht : Topo g) (hw : WF g) (hn : NonPos g) (hne : g.arcs ≠ []) (s : Nat)
    (hs : s < g.states.length) (ex : List Nat) :
    ∃ prev best, calcPrevScores g s ex = some (prev, best) ∧ prev.length = g.states.length ∧
      prev[s]? = some (baseScore g s) ∧
      ∀ (t : Nat) (v : Score), t ≠ s → prev[t]? = some v → small ≤ v ∧
        (small < v → IsBest (Allowed g ex) (baseScore g s) s t v) ∧
        (v = small → ∀ p, Path (Allowed g ex) s p t → baseScore g s + score own p ≤ small) := by
  obtain ⟨st, h1, h2⟩ := calcPrev_ok ht hw hne s hs ex []
  rw [eff_nil] at h2
  refine ⟨st.prev, st.best, h1, h2.lenP, h2.src, ?_⟩
  intro t v hts hv
  have hlo : ∀ p, Path (Allowed g ex) s p t → baseScore g s + score own p ≤ v :=
    fun p hp => h2.lo t p v ((path_below_all fun _ _ => allowed_arc).2 hp) hv
  refine ⟨h2.ge t v hts hv, ?_, fun h p hp => h ▸ hlo p hp⟩
  intro hsm
  rcases chain_all ht h2 t v hv with ⟨q, u, h3, h4⟩ | ⟨p, h3, h4, -⟩
  · have := score_nonpos hn.own h3
    exfalso; grind
  · exact ⟨⟨p, h3, h4⟩, hlo⟩

/-- The full claim: the scores of all states that some allowed path reaches are exact, and states that
none reaches have a score that is at most `SMALL_SCORE`. -/
def C55_full : Prop :=
  ∀ g : WG, Topo g → WF g → g.arcs ≠ [] → ∀ s, s < g.states.length → ∀ ex,
    ∃ prev best, calcPrevScores g s ex = some (prev, best) ∧
      ∀ (t : Nat) (v : Score), prev[t]? = some v → t ≠ s → small < v →
        ∃ p, Path (Allowed g ex) s p t ∧ v = baseScore g s + score own p

/-- A graph with the arcs `0→1` and `1→2`, the latter with a positive score. -/
def exPos : WG :=
  { arcs := [⟨0, 1, 0, []⟩, ⟨1, 2, 1000, []⟩], pruned := [false, false],
    states := [⟨[], [0]⟩, ⟨[0], [1]⟩, ⟨[1], []⟩], final := [2], init := 0, weights := [], comps := [[], []] }

theorem get2 {α : Type} {x y z : α} {i : Nat} (h : [x, y][i]? = some z) : (i = 0 ∧ z = x) ∨ (i = 1 ∧ z = y) := by
  match i with
  | 0 => left; simpa using h.symm
  | 1 => right; simpa using h.symm
  | i + 2 => simp at h

theorem exPos_topo : Topo exPos := by
  intro i j a b ha hb hij
  rcases get2 ha with ⟨rfl, rfl⟩ | ⟨rfl, rfl⟩ <;> rcases get2 hb with ⟨rfl, rfl⟩ | ⟨rfl, rfl⟩ <;> simp_all

theorem wf_of {g : WG} (h1 : g.pruned.length = g.arcs.length) (h2 : g.comps.length = g.arcs.length)
    (h3 : ∀ a ∈ g.arcs, a.pred < g.states.length) (h4 : ∀ a ∈ g.arcs, a.succ < g.states.length)
    (h5 : ∀ s ∈ List.range g.states.length, (g.states[s]?.map StateData.toPred) =
      some ((List.range g.arcs.length).filter fun i => (g.arcs[i]?.map Arc.succ) == some s))
    (h6 : ∀ s ∈ List.range g.states.length, (g.states[s]?.map StateData.toSucc) =
      some ((List.range g.arcs.length).filter fun i => (g.arcs[i]?.map Arc.pred) == some s)) : WF g := by
  refine ⟨h1, h2, fun i a h => h3 a (List.mem_of_getElem? h), fun i a h => h4 a (List.mem_of_getElem? h), ?_, ?_⟩
  · intro s d h
    have := h5 s (List.mem_range.2 (List.getElem?_eq_some_iff.1 h).1)
    rw [h] at this; exact Option.some.inj this
  · intro s d h
    have := h6 s (List.mem_range.2 (List.getElem?_eq_some_iff.1 h).1)
    rw [h] at this; exact Option.some.inj this

theorem topo_of {g : WG} (h : ∀ j ∈ List.range g.arcs.length, ∀ i ∈ List.range (j + 1),
    (g.arcs[j]?.map Arc.succ) ≠ (g.arcs[i]?.map Arc.pred)) : Topo g := by
  intro i j a b ha hb hij hc
  have := h j (List.mem_range.2 (List.getElem?_eq_some_iff.1 hb).1) i (List.mem_range.2 (by omega))
  rw [ha, hb] at this
  exact this (by simp [hc])

theorem exPos_wf : WF exPos := by apply wf_of <;> decide +kernel

/-- The full claim is false: the excluded arc `0→1` gives state 1 a small score, and the positive score
of the arc `1→2` lifts the score of state 2, that no allowed path reaches, above `SMALL_SCORE`. -/
theorem C55_counterexample : ¬ C55_full := by
  intro h
  obtain ⟨prev, best, h1, h2⟩ := h exPos exPos_topo exPos_wf (by decide) 0 (by decide) [0]
  have he : calcPrevScores exPos 0 [0] =
      some ([0, small, small + 1000], [none, none, some ⟨1, 2, 1000, []⟩]) := by decide +kernel
  rw [he] at h1
  cases h1
  obtain ⟨p, hp, -⟩ := h2 2 (small + 1000) (by rfl) (by decide) (by decide +kernel)
  rcases hp.inv with ⟨-, h3⟩ | ⟨i, a, p', -, h3, h4, -⟩
  · omega
  · obtain ⟨h4, h5⟩ := h4
    rcases get2 h4.1 with ⟨rfl, rfl⟩ | ⟨rfl, rfl⟩
    · simp at h5
    · simp at h3

/-! ## Best path -/

theorem bestFinal_ok {prev : List Score} : ∀ (l : List Nat) (b : Nat × Score), (∀ f ∈ l, f < prev.length) →
    ∃ r, bestFinal prev l b = some r ∧ b.2 ≤ r.2 ∧ (r = b ∨ (r.1 ∈ l ∧ prev[r.1]? = some r.2 ∧ b.2 < r.2)) ∧
      ∀ f ∈ l, ∀ v, prev[f]? = some v → v ≤ r.2 := by
  intro l
  induction l with
  | nil => intro b _; exact ⟨b, rfl, Rat.le_refl, Or.inl rfl, by simp⟩
  | cons f l ih =>
    intro b h
    obtain ⟨v, hv⟩ : ∃ v, prev[f]? = some v := ⟨_, List.getElem?_eq_getElem (h f (List.mem_cons_self ..))⟩
    obtain ⟨r, h1, h2, h3, h4⟩ := ih (if b.2 < v then (f, v) else b) fun x hx => h x (List.mem_cons_of_mem _ hx)
    refine ⟨r, by simp only [bestFinal, hv]; exact h1, ?_, ?_, ?_⟩
    · split at h2 <;> grind
    · split at h3
      · rename_i hlt
        right
        rcases h3 with rfl | ⟨h5, h6, h7⟩
        · exact ⟨List.mem_cons_self .., hv, hlt⟩
        · exact ⟨List.mem_cons_of_mem _ h5, h6, by simp only at h7; grind⟩
      · rcases h3 with rfl | ⟨h5, h6, h7⟩
        · exact Or.inl rfl
        · exact Or.inr ⟨List.mem_cons_of_mem _ h5, h6, h7⟩
    · intro x hx y hy
      rcases List.mem_cons.1 hx with rfl | hx
      · rw [hv] at hy; cases hy
        split at h2 <;> grind
      · exact h4 x hx y hy

/-- **C56 (best path).** If some allowed path leads from `s` to a final state, and its score is above
that of every path of the graph by more than the offset `SMALL_SCORE`, then the arcs returned by
`bestPathFromFinalStateToIdx` (last one first) are an allowed path from `s` to a final state, the score
returned is its score, and no allowed path from `s` to a final state has a greater score. -/
theorem C56_bestPath {g : WG} (ht : Topo g) (hw : WF g) (hf : FinalOk g) (s : Nat) (hs : s < g.states.length)
    (ex : List Nat) (p0 : List (Nat × Arc)) (f0 : Nat) (hf0 : f0 ∈ g.final) (hp0 : Path (Allowed g ex) s p0 f0)
    (hp0ne : p0 ≠ [])
    (hbig : ∀ q u t, Path (Live g) u q t → small + score own q < baseScore g s + score own p0) :
    ∃ p f, f ∈ g.final ∧ Path (Allowed g ex) s p f ∧
      bestPath g s ex = some (baseScore g s + score own p, (p.map Prod.snd).reverse) ∧
      ∀ p' f', f' ∈ g.final → Path (Allowed g ex) s p' f' → score own p' ≤ score own p := by
  have hne : g.arcs ≠ [] := by
    intro h
    cases hp0 with
    | nil => exact hp0ne rfl
    | cons h1 _ => have := h1.1.1; rw [h] at this; simp at this
  obtain ⟨st, h1, h2⟩ := calcPrev_ok ht hw hne s hs ex []
  rw [eff_nil] at h2
  have hlo : ∀ p' f', f' ∈ g.final → Path (Allowed g ex) s p' f' →
      ∀ v, st.prev[f']? = some v → baseScore g s + score own p' ≤ v :=
    fun p' f' _ hp v hv => h2.lo f' p' v ((path_below_all fun _ _ => allowed_arc).2 hp) hv
  obtain ⟨r, hr, hr1, hr2, hr3⟩ := bestFinal_ok (prev := st.prev) g.final (initialState, small)
    (fun f h => by rw [h2.lenP]; exact hf f h)
  have hall : ∀ p' f', f' ∈ g.final → Path (Allowed g ex) s p' f' → baseScore g s + score own p' ≤ r.2 := by
    intro p' f' hf' hp'
    obtain ⟨v, hv⟩ : ∃ v, st.prev[f']? = some v :=
      ⟨_, List.getElem?_eq_getElem (by rw [h2.lenP]; exact hf f' hf')⟩
    exact Rat.le_trans (hlo p' f' hf' hp' v hv) (hr3 f' hf' v hv)
  have h0 := hall p0 f0 hf0 hp0
  have hs0 := hbig [] f0 f0 (.nil _)
  simp only [score, Rat.add_zero] at hs0
  rcases hr2 with rfl | ⟨hr4, hr5, hr6⟩
  · simp only at h0; exfalso; grind
  · rcases chain_all ht h2 r.1 r.2 hr5 with ⟨q, u, hq, hv⟩ | ⟨p, hp, hv, hfol⟩
    · have := hbig q u r.1 hq
      exfalso; grind
    · refine ⟨p, r.1, hr4, hp, ?_, ?_⟩
      · unfold bestPath bestPathWeights
        rw [h1]
        simp only [bestPathAux, hr]
        have : stateIsFinal g r.1 = true := by simpa [stateIsFinal] using hr4
        rw [this, if_pos rfl, hfol, hv]
        rfl
      · intro p' f' hf' hp'
        have := hall p' f' hf' hp'
        grind

/-- **C56 (no path).** If no allowed path leads from `s` to a final state, no arc has a positive score and
the initial state is not final, the result is `SMALL_SCORE` and no arcs. -/
theorem C56_bestPath_none {g : WG} (ht : Topo g) (hw : WF g) (hf : FinalOk g) (hn : NonPos g) (hne : g.arcs ≠ [])
    (s : Nat) (hs : s < g.states.length) (ex : List Nat) (h0 : initialState ∉ g.final)
    (hno : ∀ p f, f ∈ g.final → ¬ Path (Allowed g ex) s p f) : bestPath g s ex = some (small, []) := by
  obtain ⟨st, h1, h2⟩ := calcPrev_ok ht hw hne s hs ex []
  rw [eff_nil] at h2
  obtain ⟨r, hr, hr1, hr2, hr3⟩ := bestFinal_ok (prev := st.prev) g.final (initialState, small)
    (fun f h => by rw [h2.lenP]; exact hf f h)
  unfold bestPath bestPathWeights
  rw [h1]
  simp only [bestPathAux, hr]
  rcases hr2 with rfl | ⟨hr4, hr5, hr6⟩
  · have : stateIsFinal g initialState = false := by simpa [stateIsFinal] using h0
    rw [this]; simp
  · exfalso
    rcases chain_all ht h2 r.1 r.2 hr5 with ⟨q, u, hq, hv⟩ | ⟨p, hp, hv, hfol⟩
    · have := score_nonpos hn.own hq
      simp only at hr6
      grind
    · exact hno p r.1 hr4 hp

/-- The full claim: without allowed paths to a final state the result is an empty path, for every word
graph. -/
def C56_full : Prop :=
  ∀ g : WG, Topo g → WF g → FinalOk g → NonPos g → ∀ s, s < g.states.length → ∀ ex,
    (∀ p f, f ∈ g.final → ¬ Path (Allowed g ex) s p f) → ∃ sc, bestPath g s ex = some (sc, [])

/-- The arc `0→1`; the initial state is final. -/
def exInitFinal : WG :=
  { arcs := [⟨0, 1, -1, []⟩], pruned := [false], states := [⟨[], [0]⟩, ⟨[0], []⟩], final := [0],
    init := 0, weights := [], comps := [[]] }

/-- The full claim is false: when the initial state is final, the search for a path from state 1 takes
the initial state as the best final state and reads its (uninitialised) best predecessor arc. -/
theorem C56_counterexample : ¬ C56_full := by
  intro h
  obtain ⟨sc, h1⟩ := h exInitFinal (topo_of (by decide +kernel)) (wf_of (by decide) (by decide) (by decide) (by decide)
    (by decide +kernel) (by decide +kernel)) (by unfold FinalOk; decide) (by unfold NonPos; decide +kernel) 1 (by decide) []
    (by
      intro p f hf hp
      have hf0 : f = 0 := by simpa [exInitFinal] using hf
      generalize hs : (1 : Nat) = s at hp
      cases hp with
      | nil => omega
      | cons h1 _ =>
        have h2 := List.mem_of_getElem? h1.1.1
        simp [exInitFinal] at h2
        subst h2
        simp at hs)
  have : bestPath exInitFinal 1 [] = none := by decide +kernel
  rw [this] at h1
  cases h1

/-! ## Rest scores -/

/-- **C57 (rest scores).** `calcRestScores` on a topologically ordered word graph without positive arc
scores: the score of a state is never below `init + score` of a path that is not pruned and leads to a
final state, and a score above `SMALL_SCORE` is the score of such a path. -/
theorem C57_restScores {g : WG} (ht : Topo g) (hw : WF g) (hf : FinalOk g) (hn : NonPos g) :
    ∃ rest, calcRestScores g = some rest ∧ rest.length = g.states.length ∧
      ∀ (t : Nat) (x : Score), rest[t]? = some x →
        (∀ p f, f ∈ g.final → Path (Live g) t p f → g.init + score own p ≤ x) ∧
        (small < x → ∃ p f, f ∈ g.final ∧ Path (Live g) t p f ∧ x = g.init + score own p) ∧
        (t ∉ g.final → small ≤ x) := by
  obtain ⟨v, h1, h2, h3⟩ := calcRest_ok ht hw hf
  refine ⟨v, h1, h2.len, ?_⟩
  intro t x hx
  refine ⟨fun p f hf' hp => h2.lo t p f x hf' (path_from_zero.2 hp) hx, ?_, fun htf => h3 t x htf hx⟩
  intro hsm
  rcases h2.hi t x hx with ⟨p, f, h4, h5, h6⟩ | ⟨q, u, h4, h5⟩
  · exact ⟨p, f, h4, path_from_zero.1 h5, h6⟩
  · have := score_nonpos hn.own (path_from_zero.1 h4)
    exfalso; grind

/-! ## Non-vacuity -/

/-- A diamond: `0→1→3` (-3), `0→2→3` (-4), and the pruned arc `0→3`. -/
def exDiamond : WG :=
  { arcs := [⟨0, 1, -1, [['a']]⟩, ⟨0, 2, -3, [['b']]⟩, ⟨1, 3, -2, [['c']]⟩, ⟨2, 3, -1, [['d']]⟩, ⟨0, 3, 0, [['e']]⟩],
    pruned := [false, false, false, false, true],
    states := [⟨[], [0, 1, 4]⟩, ⟨[0], [2]⟩, ⟨[1], [3]⟩, ⟨[2, 3, 4], []⟩], final := [3], init := -1, weights := [],
    comps := [[], [], [], [], []] }

theorem exDiamond_topo : Topo exDiamond := topo_of (by decide +kernel)
theorem exDiamond_wf : WF exDiamond :=
  wf_of (by decide) (by decide) (by decide) (by decide) (by decide +kernel) (by decide +kernel)
theorem exDiamond_nonpos : NonPos exDiamond := by unfold NonPos; decide +kernel
theorem exDiamond_final : FinalOk exDiamond := by unfold FinalOk; decide

example : calcPrevScores exDiamond 0 [] =
    some ([-1, -2, -4, -4], [none, some ⟨0, 1, -1, [['a']]⟩, some ⟨0, 2, -3, [['b']]⟩, some ⟨1, 3, -2, [['c']]⟩]) := by
  decide +kernel

/-- The best path, and the best path without the arc 0. -/
example : bestPath exDiamond 0 [] = some (-4, [⟨1, 3, -2, [['c']]⟩, ⟨0, 1, -1, [['a']]⟩]) := by decide +kernel
example : bestPath exDiamond 0 [0] = some (-5, [⟨2, 3, -1, [['d']]⟩, ⟨0, 2, -3, [['b']]⟩]) := by decide +kernel
example : bestPath exDiamond 0 [0, 3] = some (small, []) := by decide +kernel
example : calcRestScores exDiamond = some [-4, -3, -2, -1] := by decide +kernel

/-- The hypotheses of `C56_bestPath` hold for the diamond with the first arc excluded. -/
example : ∃ p0 f0, f0 ∈ exDiamond.final ∧ Path (Allowed exDiamond [0]) 0 p0 f0 ∧ p0 ≠ [] ∧
    ∀ q u t, Path (Live exDiamond) u q t → small + score own q < baseScore exDiamond 0 + score own p0 := by
  refine ⟨[(1, ⟨0, 2, -3, [['b']]⟩), (3, ⟨2, 3, -1, [['d']]⟩)], 3, by decide, ?_, by decide, ?_⟩
  · exact .cons (a := ⟨0, 2, -3, [['b']]⟩) ⟨⟨rfl, rfl⟩, by decide⟩
      (.cons (a := ⟨2, 3, -1, [['d']]⟩) ⟨⟨rfl, rfl⟩, by decide⟩ (.nil _))
  · intro q u t hq
    have h1 := score_nonpos exDiamond_nonpos.own hq
    have h2 : small + 0 < baseScore exDiamond 0 + score own [(1, (⟨0, 2, -3, [['b']]⟩ : Arc)), (3, ⟨2, 3, -1, [['d']]⟩)] := by
      decide +kernel
    grind

end Thot.WordGraph
