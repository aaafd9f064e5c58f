import Verif.WordGraph.PrevProps

/-! # Construction of word graphs and access to the arcs of a state (C61), component weights (C63) -/

namespace Thot.WordGraph

theorem keepLive_ok {g : WG} : ∀ (l : List Nat), (∀ i ∈ l, i < g.pruned.length) →
    keepLive g l = some (l.filter fun i => g.pruned[i]? == some false) := by
  intro l
  induction l with
  | nil => intro _; rfl
  | cons i l ih =>
    intro h
    have hi := h i (List.mem_cons_self ..)
    rw [keepLive, ih fun j hj => h j (List.mem_cons_of_mem _ hj)]
    simp only [arcPruned, List.getElem?_eq_getElem hi]
    cases hb : g.pruned[i] <;> simp [List.getElem?_eq_getElem hi, hb]

/-- **C61 (incoming arcs).** In a consistent graph the arcs given for a state are exactly the arcs that
enter it and have not been pruned, in the order of their numbers; a state that does not exist has none. -/
theorem C61_arcIdsToPred {g : WG} (hw : WF g) (s : Nat) :
    arcIdsToPred g s = some ((List.range g.arcs.length).filter fun i =>
      (g.arcs[i]?.map Arc.succ) == some s && g.pruned[i]? == some false) := by
  unfold arcIdsToPred
  cases hd : g.states[s]? with
  | none =>
    simp only
    congr 1; symm
    rw [List.filter_eq_nil_iff]
    intro i hi hc
    have hil := List.mem_range.1 hi
    simp only [List.getElem?_eq_getElem hil, Option.map_some, Bool.and_eq_true, beq_iff_eq, Option.some.injEq] at hc
    have h1 := hw.succ i _ (List.getElem?_eq_getElem hil)
    have h2 := List.getElem?_eq_none_iff.1 hd
    omega
  | some d =>
    simp only
    rw [hw.toPred s d hd, keepLive_ok]
    · rw [List.filter_filter]
      congr 1; apply List.filter_congr; intros; rw [Bool.and_comm]
    · intro i hi
      rw [hw.pruned]; exact List.mem_range.1 (List.mem_filter.1 hi).1

/-- **C61 (outgoing arcs).** -/
theorem C61_arcIdsToSucc {g : WG} (hw : WF g) (s : Nat) :
    arcIdsToSucc g s = some ((List.range g.arcs.length).filter fun i =>
      (g.arcs[i]?.map Arc.pred) == some s && g.pruned[i]? == some false) := by
  unfold arcIdsToSucc
  cases hd : g.states[s]? with
  | none =>
    simp only
    congr 1; symm
    rw [List.filter_eq_nil_iff]
    intro i hi hc
    have hil := List.mem_range.1 hi
    simp only [List.getElem?_eq_getElem hil, Option.map_some, Bool.and_eq_true, beq_iff_eq, Option.some.injEq] at hc
    have h1 := hw.pred i _ (List.getElem?_eq_getElem hil)
    have h2 := List.getElem?_eq_none_iff.1 hd
    omega
  | some d =>
    simp only
    rw [hw.toSucc s d hd, keepLive_ok]
    · rw [List.filter_filter]
      congr 1; apply List.filter_congr; intros; rw [Bool.and_comm]
    · intro i hi
      rw [hw.pruned]; exact List.mem_range.1 (List.mem_filter.1 hi).1

theorem length_growStates (sts : List StateData) (succ : Nat) :
    (growStates sts succ).length = Nat.max sts.length (succ + 1) := by
  simp only [growStates, List.length_append, List.length_replicate]
  simp only [Nat.max_def]; split <;> omega

theorem getElem?_growStates (sts : List StateData) (succ t : Nat) (h : t < Nat.max sts.length (succ + 1)) :
    (growStates sts succ)[t]? = some (sts[t]?.getD ⟨[], []⟩) := by
  unfold growStates
  by_cases ht : t < sts.length
  · rw [List.getElem?_append_left ht]; simp [List.getElem?_eq_getElem ht]
  · rw [List.getElem?_append_right (by omega), List.getElem?_replicate, if_pos]
    · simp [List.getElem?_eq_none_iff.2 (Nat.le_of_not_lt ht)]
    · simp only [Nat.max_def] at h; split at h <;> omega

/-- Arcs of a state after an arc has been appended. -/
theorem filter_snoc (as : List Arc) (x : Arc) (f : Arc → Nat) (s : Nat) :
    ((List.range (as ++ [x]).length).filter fun i => (((as ++ [x])[i]?.map f) == some s)) =
      ((List.range as.length).filter fun i => ((as[i]?.map f) == some s)) ++
        (if f x = s then [as.length] else []) := by
  rw [List.length_append, List.length_singleton, List.range_succ, List.filter_append]
  congr 1
  · apply List.filter_congr
    intro i hi
    rw [List.getElem?_append_left (List.mem_range.1 hi)]
  · simp [List.filter_cons]

theorem range_filter_nil {g : WG} (f : Arc → Nat) (s : Nat) (h : ∀ (i : Nat) (a : Arc), g.arcs[i]? = some a → f a ≠ s) :
    ((List.range g.arcs.length).filter fun i => ((g.arcs[i]?.map f) == some s)) = [] := by
  rw [List.filter_eq_nil_iff]
  intro i hi hc
  have hil := List.mem_range.1 hi
  simp only [List.getElem?_eq_getElem hil, Option.map_some, beq_iff_eq, Option.some.injEq] at hc
  exact h i _ (List.getElem?_eq_getElem hil) hc

/-- **C61 (adding an arc).** Adding an arc to a consistent graph is defined exactly when the predecessor
state exists or is created by the successor (whose index is at most the number of states that then
exist); the new graph is consistent, the arc gets the next number, it is not pruned, and nothing else
changes. -/
theorem C61_addArc {g : WG} (hw : WF g) (pred succ : Nat) (words : List Str) (score : Score) :
    (pred < Nat.max g.states.length (succ + 1) → ∃ g', addArc g pred succ words score = some g' ∧ WF g' ∧
      g'.arcs = g.arcs ++ [⟨pred, succ, score, words⟩] ∧ g'.pruned = g.pruned ++ [false] ∧
      g'.comps = g.comps ++ [[]] ∧ g'.states.length = Nat.max g.states.length (succ + 1) ∧
      g'.final = g.final ∧ g'.init = g.init ∧ g'.weights = g.weights) ∧
    (¬ pred < Nat.max g.states.length (succ + 1) → addArc g pred succ words score = none) := by
  constructor
  · intro hp
    have hs : succ < Nat.max g.states.length (succ + 1) := Nat.lt_of_lt_of_le (Nat.lt_succ_self _) (Nat.le_max_right _ _)
    unfold addArc
    have h1 := getElem?_growStates g.states succ pred hp
    have hlen := length_growStates g.states succ
    simp only [h1]
    have h2 : ∀ (t : Nat) (v : StateData), ((growStates g.states succ).set pred v)[t]? =
        if t = pred then some v else (growStates g.states succ)[t]? :=
      fun t v => getElem?_set' _ _ _ _ (by rw [hlen]; exact hp)
    have h3 := getElem?_growStates g.states succ succ hs
    simp only [h2, h3]
    -- the data of each state after both updates
    have hold : ∀ (t : Nat), t < Nat.max g.states.length (succ + 1) →
        (g.states[t]?.getD ⟨[], []⟩).toPred = ((List.range g.arcs.length).filter fun i => ((g.arcs[i]?.map Arc.succ) == some t)) ∧
        (g.states[t]?.getD ⟨[], []⟩).toSucc = ((List.range g.arcs.length).filter fun i => ((g.arcs[i]?.map Arc.pred) == some t)) := by
      intro t _
      cases hd : g.states[t]? with
      | none =>
        have hge := List.getElem?_eq_none_iff.1 hd
        simp only [Option.getD_none]
        rw [range_filter_nil Arc.succ t, range_filter_nil Arc.pred t]
        · exact ⟨rfl, rfl⟩
        · intro i a ha; have := hw.pred i a ha; omega
        · intro i a ha; have := hw.succ i a ha; omega
      | some d => simp only [Option.getD_some]; exact ⟨hw.toPred t d hd, hw.toSucc t d hd⟩
    split
    · rename_i h; exfalso; split at h <;> cases h
    · rename_i ds hds
      refine ⟨_, rfl, ?_, rfl, rfl, rfl, by simp [hlen], rfl, rfl, rfl⟩
      have hget : ∀ (t : Nat) (v w : StateData), (((growStates g.states succ).set pred v).set succ w)[t]? =
          if t = succ then some w else if t = pred then some v else (growStates g.states succ)[t]? := by
        intro t v w
        rw [getElem?_set' _ _ _ _ (by rw [List.length_set, hlen]; exact hs), h2]
      have hdlt : ∀ (t : Nat) (d : StateData), (((growStates g.states succ).set pred
          { (g.states[pred]?.getD ⟨[], []⟩) with toSucc := (g.states[pred]?.getD ⟨[], []⟩).toSucc ++ [g.arcs.length] }).set succ
          { ds with toPred := ds.toPred ++ [g.arcs.length] })[t]? = some d →
          t < Nat.max g.states.length (succ + 1) := by
        intro t d hd
        have := (List.getElem?_eq_some_iff.1 hd).1
        simpa [hlen] using this
      have hdata : ∀ (t : Nat) (d : StateData), (((growStates g.states succ).set pred
          { (g.states[pred]?.getD ⟨[], []⟩) with toSucc := (g.states[pred]?.getD ⟨[], []⟩).toSucc ++ [g.arcs.length] }).set succ
          { ds with toPred := ds.toPred ++ [g.arcs.length] })[t]? = some d →
          d.toPred = (g.states[t]?.getD ⟨[], []⟩).toPred ++ (if succ = t then [g.arcs.length] else []) ∧
          d.toSucc = (g.states[t]?.getD ⟨[], []⟩).toSucc ++ (if pred = t then [g.arcs.length] else []) := by
        intro t d hd
        have hlt := hdlt t d hd
        rw [hget, getElem?_growStates _ _ _ hlt] at hd
        by_cases h4 : t = succ
        · subst h4
          rw [if_pos rfl] at hd
          have hd' := Option.some.inj hd
          subst hd'
          by_cases h5 : t = pred
          · subst h5
            rw [if_pos rfl] at hds
            have := Option.some.inj hds; subst this
            simp
          · rw [if_neg h5] at hds
            have := Option.some.inj hds; subst this
            simp [Ne.symm h5]
        · rw [if_neg h4] at hd
          by_cases h5 : t = pred
          · subst h5
            rw [if_pos rfl] at hd
            have := Option.some.inj hd; subst this
            simp [Ne.symm h4]
          · rw [if_neg h5] at hd
            have := Option.some.inj hd; subst this
            simp [Ne.symm h4, Ne.symm h5]
      refine ⟨by simp [hw.pruned], by simp [hw.comps], ?_, ?_, ?_, ?_⟩
      · intro i a ha
        simp only at ha
        rw [List.getElem?_append] at ha
        simp only [List.length_set, hlen]
        split at ha
        · have := hw.pred i a ha; exact Nat.lt_of_lt_of_le this (Nat.le_max_left _ _)
        · have := List.mem_of_getElem? ha
          simp at this; subst this; exact hp
      · intro i a ha
        simp only at ha
        rw [List.getElem?_append] at ha
        simp only [List.length_set, hlen]
        split at ha
        · have := hw.succ i a ha; exact Nat.lt_of_lt_of_le this (Nat.le_max_left _ _)
        · have := List.mem_of_getElem? ha
          simp at this; subst this; exact hs
      · intro t d hd
        simp only at hd ⊢
        rw [(hdata t d hd).1, (hold t (hdlt t d hd)).1, filter_snoc g.arcs ⟨pred, succ, score, words⟩ Arc.succ t]
      · intro t d hd
        simp only at hd ⊢
        rw [(hdata t d hd).2, (hold t (hdlt t d hd)).2, filter_snoc g.arcs ⟨pred, succ, score, words⟩ Arc.pred t]
  · intro hp
    unfold addArc
    simp only
    rw [List.getElem?_eq_none_iff.2 (by rw [length_growStates]; exact Nat.le_of_not_lt hp)]

/-- `addArcWithScrComps` also stores the score components of the arc. -/
theorem C61_addArcWithScrComps {g : WG} (hw : WF g) (pred succ : Nat) (words : List Str) (score : Score)
    (cs : List Score) (hp : pred < Nat.max g.states.length (succ + 1)) :
    ∃ g', addArcWithScrComps g pred succ words score cs = some g' ∧ WF g' ∧
      g'.arcs = g.arcs ++ [⟨pred, succ, score, words⟩] ∧ g'.pruned = g.pruned ++ [false] ∧
      g'.comps = g.comps ++ [cs] ∧ g'.states.length = Nat.max g.states.length (succ + 1) ∧
      g'.final = g.final ∧ g'.init = g.init ∧ g'.weights = g.weights := by
  obtain ⟨g1, h1, h2, h3, h4, h5, h6, h7, h8, h9⟩ := (C61_addArc hw pred succ words score).1 hp
  unfold addArcWithScrComps
  rw [h1]
  have hl : g1.arcs.length - g1.comps.length = 0 := by rw [h2.comps]; omega
  simp only [hl, List.replicate_zero, List.append_nil]
  refine ⟨_, rfl, ?_, h3, h4, ?_, h6, h7, h8, h9⟩
  · refine ⟨h2.pruned, by simp [h2.comps], h2.pred, h2.succ, h2.toPred, h2.toSucc⟩
  · rw [h5]
    simp only [List.length_append, List.length_singleton, Nat.add_sub_cancel]
    rw [List.set_append_right _ _ (Nat.le_refl _)]
    simp

/-! ## Pruning keeps the graph consistent -/

theorem length_pruneLoop {g : WG} {prev rest : List Score} {bound : Score} : ∀ (l : List Nat) (st st' : List Bool × Nat),
    pruneLoop g prev rest bound l st = some st' → st'.1.length = st.1.length := by
  intro l
  induction l with
  | nil => intro st st' h; cases h; rfl
  | cons i l ih =>
    intro st st' h
    rw [pruneLoop] at h
    cases hs : pruneArc g prev rest bound i st with
    | none => rw [hs] at h; cases h
    | some s1 =>
      rw [hs] at h
      rw [ih _ _ h]
      unfold pruneArc at hs
      split at hs
      · cases hs
      · split at hs
        · split at hs
          · split at hs
            · cases hs; simp
            · cases hs; simp
          · cases hs
        · cases hs

theorem WF.of_pruned {g : WG} (hw : WF g) (fl : List Bool) (h : fl.length = g.pruned.length) : WF { g with pruned := fl } :=
  ⟨by simp [h, hw.pruned], hw.comps, hw.pred, hw.succ, hw.toPred, hw.toSucc⟩

theorem prune_pruned {g g' : WG} {n : Nat} {t : Option Score} (h : prune g t = some (g', n)) :
    ∃ fl, g' = { g with pruned := fl } ∧ fl.length = g.pruned.length := by
  cases t with
  | none =>
    simp only [prune, Option.some.injEq, Prod.mk.injEq] at h
    exact ⟨_, h.1.symm, by simp⟩
  | some t =>
    simp only [prune, pruneArcs] at h
    split at h
    · split at h
      · cases h
      · rw [Option.map_eq_some_iff] at h
        obtain ⟨r, h1, h2⟩ := h
        simp only [Prod.mk.injEq] at h2
        exact ⟨_, h2.1.symm, length_pruneLoop _ _ _ h1⟩
    · cases h

theorem wf_new : WF new := ⟨rfl, rfl, by simp [new], by simp [new], by simp [new], by simp [new]⟩

theorem regenArcs_wf {u : List Bool} : ∀ (as : List Arc) (bs : List Bool) (cs : List (List Score)) (g g' : WG), WF g →
    regenArcs u as bs cs g = some g' → WF g' := by
  intro as
  induction as with
  | nil => intro bs cs g g' hw h; cases h; exact hw
  | cons a as ih =>
    intro bs cs g g' hw h
    match bs, cs with
    | [], _ => simp [regenArcs] at h
    | _ :: _, [] => simp [regenArcs] at h
    | b :: bs, c :: cs =>
      rw [regenArcs] at h
      split at h
      · exact ih bs cs g g' hw h
      · split at h
        · split at h
          · rename_i p s _ _
            split at h
            · cases h
            · rename_i g1 hg1
              by_cases hp : p < Nat.max g.states.length (s + 1)
              · obtain ⟨g2, h2, hw2, -⟩ := C61_addArcWithScrComps hw p s a.words a.score c hp
                rw [h2] at hg1; cases hg1
                exact ih bs cs _ g' hw2 h
              · rw [addArcWithScrComps, (C61_addArc hw p s a.words a.score).2 hp] at hg1; cases hg1
          · cases h
        · exact ih bs cs g g' hw h
        · cases h

theorem foldl_final {l : List Nat} : ∀ (g : WG), (l.foldl addFinalState g) = { g with final := (l.foldl addFinalState g).final } := by
  induction l with
  | nil => intro g; rfl
  | cons x l ih => intro g; rw [List.foldl_cons, ih]; rfl

theorem getElem?_rescore (ws : List Score) : ∀ (as : List Arc) (cs : List (List Score)) (i : Nat),
    (rescore ws as cs)[i]? = (as[i]?).map fun a =>
      match cs[i]? with
      | some c => if c.length = ws.length then { a with score := dot ws c } else a
      | none => a := by
  intro as
  induction as with
  | nil => intro cs i; simp [rescore]
  | cons a as ih =>
    intro cs i
    cases cs with
    | nil => simp only [rescore, List.getElem?_nil]; simp
    | cons c cs =>
      rw [rescore]
      cases i with
      | zero => simp
      | succ i => simp [ih]

theorem length_rescore (ws : List Score) : ∀ (as : List Arc) (cs : List (List Score)),
    (rescore ws as cs).length = as.length := by
  intro as
  induction as with
  | nil => intro cs; rfl
  | cons a as ih =>
    intro cs
    cases cs with
    | nil => rfl
    | cons c cs => simp [rescore, ih]

theorem wf_weights {g : WG} (hw : WF g) (ws : List (Str × Score)) : WF (setCompWeights g ws) := by
  have h1 : ∀ (i : Nat) (a : Arc), (setCompWeights g ws).arcs[i]? = some a →
      ∃ b, g.arcs[i]? = some b ∧ b.pred = a.pred ∧ b.succ = a.succ := by
    intro i a ha
    simp only [setCompWeights, getElem?_rescore, Option.map_eq_some_iff] at ha
    obtain ⟨b, hb, rfl⟩ := ha
    refine ⟨b, hb, ?_⟩
    split
    · split <;> exact ⟨rfl, rfl⟩
    · exact ⟨rfl, rfl⟩
  have h2 : ∀ i : Nat, (setCompWeights g ws).arcs[i]?.map Arc.succ = g.arcs[i]?.map Arc.succ := by
    intro i
    simp only [setCompWeights, getElem?_rescore, Option.map_map]
    congr 1; funext a
    simp only [Function.comp]
    split
    · split <;> rfl
    · rfl
  have h3 : ∀ i : Nat, (setCompWeights g ws).arcs[i]?.map Arc.pred = g.arcs[i]?.map Arc.pred := by
    intro i
    simp only [setCompWeights, getElem?_rescore, Option.map_map]
    congr 1; funext a
    simp only [Function.comp]
    split
    · split <;> rfl
    · rfl
  have hl : (setCompWeights g ws).arcs.length = g.arcs.length := length_rescore _ _ _
  refine ⟨by rw [hl]; exact hw.pruned, by rw [hl]; exact hw.comps, ?_, ?_, ?_, ?_⟩
  · intro i a ha
    obtain ⟨b, hb, h4, -⟩ := h1 i a ha
    rw [← h4]; exact hw.pred i b hb
  · intro i a ha
    obtain ⟨b, hb, -, h4⟩ := h1 i a ha
    rw [← h4]; exact hw.succ i b hb
  · intro s d hd
    rw [hl]; simp only [h2]; exact hw.toPred s d hd
  · intro s d hd
    rw [hl]; simp only [h3]; exact hw.toSucc s d hd

/-- The calls that build and change a word graph, apart from `orderArcsTopol`. -/
inductive Op
  | clear
  | addArc (pred succ : Nat) (words : List Str) (score : Score)
  | addArcWithScrComps (pred succ : Nat) (words : List Str) (score : Score) (cs : List Score)
  | addFinalState (s : Nat)
  | setInitialStateScore (sc : Score)
  | setCompWeights (ws : List (Str × Score))
  | prune (logT : Option Score)
  | obtainUseful

/-- Effect of a call; `none` if its behaviour is undefined. -/
def Op.run (g : WG) : Op → Option WG
  | .clear => some (WordGraph.clear g)
  | .addArc p s w sc => WordGraph.addArc g p s w sc
  | .addArcWithScrComps p s w sc cs => WordGraph.addArcWithScrComps g p s w sc cs
  | .addFinalState s => some (WordGraph.addFinalState g s)
  | .setInitialStateScore sc => some (WordGraph.setInitialStateScore g sc)
  | .setCompWeights ws => some (WordGraph.setCompWeights g ws)
  | .prune t => (WordGraph.prune g t).map Prod.fst
  | .obtainUseful => WordGraph.obtainUseful g

/-- The graph after a history of calls on a new graph. -/
def runOps : List Op → WG → Option WG
  | [], g => some g
  | o :: l, g => match o.run g with
    | none => none
    | some g => runOps l g

/-- **C61 (histories).** After any history of calls (without undefined behaviour) on a new word graph,
the graph is consistent: every arc has a pruning flag and a vector of components, and every state lists
exactly its incoming and outgoing arcs. -/
theorem C61_history : ∀ (ops : List Op) (g g' : WG), WF g → runOps ops g = some g' → WF g' := by
  intro ops
  induction ops with
  | nil => intro g g' hw h; cases h; exact hw
  | cons o l ih =>
    intro g g' hw h
    rw [runOps] at h
    cases ho : o.run g with
    | none => rw [ho] at h; cases h
    | some g1 =>
      rw [ho] at h
      refine ih g1 g' ?_ h
      cases o with
      | clear => cases ho; exact wf_new
      | addArc p s w sc =>
        by_cases hp : p < Nat.max g.states.length (s + 1)
        · obtain ⟨g2, h2, hw2, -⟩ := (C61_addArc hw p s w sc).1 hp
          simp only [Op.run, h2] at ho; cases ho; exact hw2
        · simp only [Op.run, (C61_addArc hw p s w sc).2 hp] at ho; cases ho
      | addArcWithScrComps p s w sc cs =>
        by_cases hp : p < Nat.max g.states.length (s + 1)
        · obtain ⟨g2, h2, hw2, -⟩ := C61_addArcWithScrComps hw p s w sc cs hp
          simp only [Op.run, h2] at ho; cases ho; exact hw2
        · simp only [Op.run, addArcWithScrComps, (C61_addArc hw p s w sc).2 hp] at ho; cases ho
      | addFinalState s => cases ho; exact ⟨hw.pruned, hw.comps, hw.pred, hw.succ, hw.toPred, hw.toSucc⟩
      | setInitialStateScore s => cases ho; exact ⟨hw.pruned, hw.comps, hw.pred, hw.succ, hw.toPred, hw.toSucc⟩
      | setCompWeights ws => cases ho; exact wf_weights hw ws
      | prune t =>
        simp only [Op.run, Option.map_eq_some_iff] at ho
        obtain ⟨⟨g2, n⟩, h2, rfl⟩ := ho
        obtain ⟨fl, rfl, h3⟩ := prune_pruned h2
        exact hw.of_pruned fl h3
      | obtainUseful =>
        simp only [Op.run, obtainUseful] at ho
        split at ho
        · cases ho; exact hw
        · split at ho
          · cases ho
          · refine regenArcs_wf _ _ _ _ _ ?_ ho
            rw [foldl_final]
            exact ⟨rfl, rfl, by simp, by simp, by simp, by simp⟩

theorem C61_history_new (ops : List Op) (g : WG) (h : runOps ops new = some g) : WF g :=
  C61_history ops new g wf_new h

/-- The full claim: arcs can be added in any order. -/
def C61_full : Prop := ∀ (g : WG), WF g → ∀ p s w sc, (addArc g p s w sc).isSome

/-- The full claim is false: the predecessor state of an arc must exist already; `addArc(3,1,..)` on an
empty graph writes outside `wordGraphStates`. -/
theorem C61_counterexample : ¬ C61_full := by
  intro h
  have := h new wf_new 3 1 [] 0
  revert this; decide +kernel

/-- A history that builds a graph with components and prunes it. -/
example : (runOps [.addArcWithScrComps 0 1 [['a']] (-1) [-1, 0], .addArcWithScrComps 0 2 [['b']] (-3) [-2, -1],
    .addArc 1 2 [['c']] (-5), .addFinalState 2, .setCompWeights [(['x'], 1), (['y'], 2)], .prune (some (-1))] new) =
    some ⟨[⟨0, 1, -1, [['a']]⟩, ⟨0, 2, -4, [['b']]⟩, ⟨1, 2, -5, [['c']]⟩], [true, false, true],
      [⟨[], [0, 1]⟩, ⟨[0], [2]⟩, ⟨[1, 2], []⟩], [2], 0, [(['x'], 1), (['y'], 2)], [[-1, 0], [-2, -1], []]⟩ := by
  decide +kernel

end Thot.WordGraph
