import Verif.WordGraph.BuildProps

/-! # Component weights (C63) -/

namespace Thot.WordGraph

/-- **C63 (rescoring).** After `setCompWeights` the score of every arc that has as many score components
as there are weights is the weighted sum of its components, the other arcs keep their scores, and nothing
but scores and weights changes. -/
theorem C63_setCompWeights {g : WG} (hw : WF g) (ws : List (Str × Score)) :
    let g' := setCompWeights g ws
    getCompWeights g' = ws ∧ g'.arcs.length = g.arcs.length ∧ g'.pruned = g.pruned ∧ g'.states = g.states ∧
      g'.final = g.final ∧ g'.init = g.init ∧ g'.comps = g.comps ∧
      ∀ (i : Nat) (a : Arc) (c : List Score), g.arcs[i]? = some a → g.comps[i]? = some c →
        g'.arcs[i]? = some { a with
          score := if c.length = ws.length then (List.zipWith (· * ·) (ws.map Prod.snd) c).sum else a.score } := by
  have _ := hw
  refine ⟨rfl, length_rescore _ _ _, rfl, rfl, rfl, rfl, rfl, ?_⟩
  intro i a c ha hc
  simp only [setCompWeights, getElem?_rescore, ha, hc, Option.map_some, List.length_map]
  have hdot : ∀ (u v : List Score), dot u v = (List.zipWith (· * ·) u v).sum := by
    intro u
    induction u with
    | nil => intro v; simp [dot]
    | cons x u ih => intro v; cases v with
      | nil => simp [dot]
      | cons y v => simp [dot, ih]
  split <;> simp [hdot]

/-- The part of an arc that does not depend on weights. -/
def strip (a : Arc) : Nat × Nat × List Str := (a.pred, a.succ, a.words)

/-- Both searches are in the same state. -/
structure Same (st st' : PrevSt) : Prop where
  prev : st.prev = st'.prev
  acc : st.acc = st'.acc
  best : st.best.map (Option.map strip) = st'.best.map (Option.map strip)

/-- The weights can be applied: there is at least one weight, as many as component weights, and every
arc has that many components. -/
def Appliable (g : WG) (alt : List Score) : Prop :=
  alt ≠ [] ∧ alt.length = g.weights.length ∧ ∀ c ∈ g.comps, c.length = alt.length

theorem altAppliable_iff (g : WG) (alt : List Score) : altAppliable g alt = true ↔ Appliable g alt := by
  unfold altAppliable Appliable
  cases alt with
  | nil => simp
  | cons x alt =>
    simp only [List.isEmpty_cons, Bool.false_eq_true, if_false, Bool.and_eq_true, beq_iff_eq, List.all_eq_true, ne_eq,
      reduceCtorEq, not_false_eq_true, true_and]
    constructor
    · rintro ⟨h1, h2⟩; exact ⟨h1, fun c hc => (h2 c hc).symm⟩
    · rintro ⟨h1, h2⟩; exact ⟨h1, fun c hc => (h2 c hc).symm⟩

theorem arc_rescored {g : WG} (hw : WF g) {ws : List (Str × Score)} (hap : Appliable g (ws.map Prod.snd)) {i : Nat} {a : Arc}
    (ha : g.arcs[i]? = some a) : (setCompWeights g ws).arcs[i]? = some { a with score := eff g (ws.map Prod.snd) i a } := by
  have hi : i < g.comps.length := by rw [hw.comps]; exact (List.getElem?_eq_some_iff.1 ha).1
  have hc : g.comps[i]? = some g.comps[i] := List.getElem?_eq_getElem hi
  simp only [setCompWeights, getElem?_rescore, ha, hc, Option.map_some]
  rw [if_pos (hap.2.2 _ (List.getElem_mem hi))]
  simp [eff, effScore, (altAppliable_iff _ _).2 hap, hc]

theorem same_relax {st st' : PrevSt} (h : Same st st') (a a' : Arc) (ha : strip a = strip a') (x : Bool) (es pv sv : Score) :
    Same (relaxPrev st a x es pv sv) (relaxPrev st' a' x es pv sv) := by
  have hs : a.succ = a'.succ := congrArg (fun x => x.2.1) ha
  unfold relaxPrev
  simp only [← hs]
  generalize (if (if x = true then small else es + pv) < small then small else if x = true then small else es + pv) = sc
  by_cases hgt : sc > sv
  · simp only [hgt, if_true]
    exact ⟨by simp only [h.prev], by simp only [h.acc], by simp only [List.map_set, h.best, Option.map_some, ha]⟩
  · simp only [hgt, if_false]
    exact ⟨h.prev, by simp only [h.acc], h.best⟩

theorem same_step {g : WG} (hw : WF g) {ws : List (Str × Score)} (hap : Appliable g (ws.map Prod.snd)) (ex : List Nat)
    (i : Nat) (st st' : PrevSt) (h : Same st st') :
    match prevStep g ex (ws.map Prod.snd) i st, prevStep (setCompWeights g ws) ex [] i st' with
    | none, none => True
    | some r, some r' => Same r r'
    | _, _ => False := by
  unfold prevStep
  have hpr : arcPruned (setCompWeights g ws) i = arcPruned g i := rfl
  rw [hpr]
  cases arcPruned g i with
  | none => trivial
  | some b =>
  cases b with
  | true => exact h
  | false =>
    simp only [arc]
    cases ha : g.arcs[i]? with
    | none =>
      have : (setCompWeights g ws).arcs[i]? = none := by simp [setCompWeights, getElem?_rescore, ha]
      rw [this]; trivial
    | some a =>
      rw [arc_rescored hw hap ha]
      simp only [← h.acc, ← h.prev]
      cases st.acc[a.pred]? with
      | none => trivial
      | some c =>
      cases c with
      | false =>
        cases st.acc[a.succ]? with
        | none => trivial
        | some c =>
        cases c with
        | true => exact h
        | false => exact ⟨rfl, rfl, h.best⟩
      | true =>
        have he : effScore (setCompWeights g ws) [] i { a with score := eff g (ws.map Prod.snd) i a } =
            some (eff g (ws.map Prod.snd) i a) := by simp [effScore, altAppliable]
        simp only [effScore_ok hw _ ha, he]
        cases st.prev[a.pred]? with
        | none => trivial
        | some pv =>
        cases st.prev[a.succ]? with
        | none => trivial
        | some sv =>
          exact same_relax h a ⟨a.pred, a.succ, eff g (List.map Prod.snd ws) i a, a.words⟩ rfl (ex.contains i) _ pv sv

theorem same_loop {g : WG} (hw : WF g) {ws : List (Str × Score)} (hap : Appliable g (ws.map Prod.snd)) (ex : List Nat) :
    ∀ (l : List Nat) (st st' : PrevSt), Same st st' →
    match prevLoop g ex (ws.map Prod.snd) l st, prevLoop (setCompWeights g ws) ex [] l st' with
    | none, none => True
    | some r, some r' => Same r r'
    | _, _ => False := by
  intro l
  induction l with
  | nil => intro st st' h; exact h
  | cons i l ih =>
    intro st st' h
    rw [prevLoop, prevLoop]
    have := same_step hw hap ex i st st' h
    revert this
    cases prevStep g ex (ws.map Prod.snd) i st <;> cases prevStep (setCompWeights g ws) ex [] i st'
    · intro _; trivial
    · intro h; exact h.elim
    · intro h; exact h.elim
    · intro h; exact ih _ _ h

/-- What a caller sees of the previous scores: the scores, and the best predecessor arcs without their
scores. -/
def seen (r : Option (List Score × List (Option Arc))) : Option (List Score × List (Option (Nat × Nat × List Str))) :=
  r.map fun x => (x.1, x.2.map (Option.map strip))

theorem rescore_isEmpty (g : WG) (ws : List (Str × Score)) : isEmpty (setCompWeights g ws) = isEmpty g := by
  have h := length_rescore (ws.map Prod.snd) g.arcs g.comps
  simp only [isEmpty, setCompWeights]
  cases h1 : rescore (ws.map Prod.snd) g.arcs g.comps <;> cases h2 : g.arcs <;> rw [h1, h2] at h <;> simp_all

/-- **C63 (alternative weights).** The previous scores computed with alternative weights that can be
applied are those of the graph rescored with these weights, and so are the best predecessors. -/
theorem C63_altWeights {g : WG} (hw : WF g) (ws : List (Str × Score)) (hap : Appliable g (ws.map Prod.snd))
    (s : Nat) (ex : List Nat) :
    seen (calcPrevScoresWeights g s ex (ws.map Prod.snd)) = seen (calcPrevScores (setCompWeights g ws) s ex) := by
  unfold calcPrevScores calcPrevScoresWeights
  rw [rescore_isEmpty]
  split
  · rfl
  · simp only
    have hst : (setCompWeights g ws).states = g.states := rfl
    have hin : (setCompWeights g ws).init = g.init := rfl
    have hl : (setCompWeights g ws).arcs.length = g.arcs.length := length_rescore _ _ _
    rw [hst, hin, hl]
    split
    · have := fun st => same_loop hw hap ex (List.range g.arcs.length) st st (Same.mk rfl rfl rfl)
      generalize (PrevSt.mk ((List.replicate g.states.length small).set s (if s = initialState then g.init else 0))
        (List.replicate g.states.length none) ((List.replicate g.states.length false).set s true)) = st0
      have := this st0
      revert this
      cases prevLoop g ex (ws.map Prod.snd) (List.range g.arcs.length) st0 <;>
        cases prevLoop (setCompWeights g ws) ex [] (List.range g.arcs.length) st0
      · intro _; rfl
      · intro h; exact h.elim
      · intro h; exact h.elim
      · intro h; simp only [seen, Option.map_some, h.prev, h.best]
    · rfl

/-- **C63 (weights that cannot be applied).** They are ignored. -/
theorem C63_altWeights_ignored (g : WG) (alt : List Score) (hap : ¬ Appliable g alt) (s : Nat) (ex : List Nat) :
    calcPrevScoresWeights g s ex alt = calcPrevScores g s ex := by
  have h1 : ∀ i a, effScore g alt i a = effScore g [] i a := by
    intro i a
    have : altAppliable g alt = false := by
      cases h : altAppliable g alt
      · rfl
      · exact absurd ((altAppliable_iff g alt).1 h) hap
    have h0 : altAppliable g [] = false := rfl
    simp only [effScore, this, h0, Bool.false_eq_true, if_false]
  have h2 : ∀ i st, prevStep g ex alt i st = prevStep g ex [] i st := by
    intro i st; simp only [prevStep, h1]
  have h3 : ∀ l st, prevLoop g ex alt l st = prevLoop g ex [] l st := by
    intro l
    induction l with
    | nil => intro st; rfl
    | cons i l ih => intro st; simp only [prevLoop, h2, ih]
  simp only [calcPrevScores, calcPrevScoresWeights, h3]

theorem followBest_same {b b' : List (Option Arc)} (h : b.map (Option.map strip) = b'.map (Option.map strip)) (s : Nat) :
    ∀ (fuel idx : Nat), (followBest b s fuel idx).map (List.map strip) = (followBest b' s fuel idx).map (List.map strip) := by
  have hget : ∀ i : Nat, (b[i]?).map (Option.map strip) = (b'[i]?).map (Option.map strip) := by
    intro i
    have := congrArg (fun l : List _ => l[i]?) h
    simpa using this
  intro fuel
  induction fuel with
  | zero => intro idx; unfold followBest; split <;> rfl
  | succ fuel ih =>
    intro idx
    unfold followBest
    split
    · rfl
    · simp only
      have hi := hget idx
      cases hb : b[idx]? with
      | none =>
        rw [hb] at hi
        cases hb' : b'[idx]? with
        | none => rfl
        | some y => rw [hb'] at hi; cases hi
      | some x =>
        rw [hb] at hi
        cases hb' : b'[idx]? with
        | none => rw [hb'] at hi; cases hi
        | some y =>
          rw [hb'] at hi
          simp only [Option.map_some, Option.some.injEq] at hi
          match x, y with
          | none, none => rfl
          | none, some _ => simp at hi
          | some _, none => simp at hi
          | some a, some a' =>
            simp only [Option.map_some, Option.some.injEq] at hi
            have hp : a.pred = a'.pred := congrArg Prod.fst hi
            have := ih a.pred
            simp only [Option.map_map]
            rw [hp] at this ⊢
            cases h1 : followBest b s fuel a'.pred with
            | none =>
              rw [h1] at this
              cases h2 : followBest b' s fuel a'.pred with
              | none => rfl
              | some _ => rw [h2] at this; cases this
            | some l =>
              rw [h1] at this
              cases h2 : followBest b' s fuel a'.pred with
              | none => rw [h2] at this; cases this
              | some l' =>
                rw [h2] at this
                simp only [Option.map_some, Option.some.injEq] at this
                simp [hi, this]

/-- **C63 (best path with alternative weights).** The best path with alternative weights is the best path
of the rescored graph. -/
theorem C63_bestPathWeights {g : WG} (hw : WF g) (ws : List (Str × Score)) (hap : Appliable g (ws.map Prod.snd))
    (s : Nat) (ex : List Nat) :
    (bestPathWeights g s ex (ws.map Prod.snd)).map (fun r => (r.1, r.2.map strip)) =
      (bestPath (setCompWeights g ws) s ex).map (fun r => (r.1, r.2.map strip)) := by
  have h := C63_altWeights hw ws hap s ex
  unfold bestPath bestPathWeights
  rw [calcPrevScores] at h
  revert h
  cases calcPrevScoresWeights g s ex (ws.map Prod.snd) with
  | none =>
    cases calcPrevScoresWeights (setCompWeights g ws) s ex [] with
    | none => intro _; rfl
    | some _ => intro h; cases h
  | some r =>
    cases calcPrevScoresWeights (setCompWeights g ws) s ex [] with
    | none => intro h; cases h
    | some r' =>
      intro h
      simp only [seen, Option.map_some, Option.some.injEq, Prod.mk.injEq] at h
      obtain ⟨h1, h2⟩ := h
      simp only [bestPathAux, h1]
      have hfin : (setCompWeights g ws).final = g.final := rfl
      have hl : (setCompWeights g ws).arcs.length = g.arcs.length := length_rescore _ _ _
      have hsf : ∀ x, stateIsFinal (setCompWeights g ws) x = stateIsFinal g x := fun _ => rfl
      rw [hfin, hl]
      cases bestFinal r'.1 g.final (initialState, small) with
      | none => rfl
      | some bf =>
        simp only [hsf]
        split
        · have := followBest_same h2 s g.arcs.length bf.1
          revert this
          cases followBest r.2 s g.arcs.length bf.1 <;> cases followBest r'.2 s g.arcs.length bf.1
          · intro _; rfl
          · intro h; cases h
          · intro h; cases h
          · intro h
            simp only [Option.map_some, Option.some.injEq] at h
            simp [h]
        · rfl

/-- A graph with two paths whose order depends on the weights. -/
def exWeights : WG :=
  { arcs := [⟨0, 1, -1, [['a']]⟩, ⟨0, 1, -2, [['b']]⟩], pruned := [false, false], states := [⟨[], [0, 1]⟩, ⟨[0, 1], []⟩],
    final := [1], init := 0, weights := [(['x'], 1), (['y'], 0)], comps := [[-1, -5], [-2, -1]] }

theorem exWeights_wf : WF exWeights :=
  wf_of (by decide) (by decide) (by decide) (by decide) (by decide +kernel) (by decide +kernel)

example : Appliable exWeights [0, 1] := ⟨by decide, by decide, by decide⟩
example : bestPath exWeights 0 [] = some (-1, [⟨0, 1, -1, [['a']]⟩]) := by decide +kernel
example : bestPathWeights exWeights 0 [] [0, 1] = some (-1, [⟨0, 1, -2, [['b']]⟩]) := by decide +kernel
/-- Weights that cannot be applied. -/
example : bestPathWeights exWeights 0 [] [0, 1, 2] = some (-1, [⟨0, 1, -1, [['a']]⟩]) := by decide +kernel

end Thot.WordGraph
