import Verif.WordGraph.PrevProps
import Verif.WordGraph.BuildProps

/-! # Topological order of the arcs (C60) -/

namespace Thot.WordGraph

theorem allSet_ok {v : List Bool} : ∀ (l : List Nat), (∀ i ∈ l, i < v.length) →
    ∃ b, allSet v l = some b ∧ (b = true ↔ ∀ i ∈ l, v[i]? = some true) := by
  intro l
  induction l with
  | nil => intro _; exact ⟨true, rfl, by simp⟩
  | cons i l ih =>
    intro h
    have hi := h i (List.mem_cons_self ..)
    obtain ⟨b, h1, h2⟩ := ih fun j hj => h j (List.mem_cons_of_mem _ hj)
    rw [allSet, List.getElem?_eq_getElem hi]
    cases hv : v[i] with
    | false =>
      refine ⟨false, rfl, ?_⟩
      simp only [Bool.false_eq_true, false_iff]
      intro hc
      have := hc i (List.mem_cons_self ..)
      rw [List.getElem?_eq_getElem hi, hv] at this; cases this
    | true =>
      refine ⟨b, h1, ?_⟩
      rw [h2]
      constructor
      · intro hc j hj
        rcases List.mem_cons.1 hj with rfl | hj
        · rw [List.getElem?_eq_getElem hi, hv]
        · exact hc j hj
      · exact fun hc j hj => hc j (List.mem_cons_of_mem _ hj)

theorem predsOf_ok {g : WG} : ∀ (l : List Nat), (∀ i ∈ l, i < g.arcs.length) →
    ∃ r, predsOf g l = some r ∧ ∀ s, s ∈ r ↔ ∃ i ∈ l, ∃ a, g.arcs[i]? = some a ∧ a.pred = s := by
  intro l
  induction l with
  | nil => intro _; exact ⟨[], rfl, by simp⟩
  | cons i l ih =>
    intro h
    have hi := h i (List.mem_cons_self ..)
    obtain ⟨r, h1, h2⟩ := ih fun j hj => h j (List.mem_cons_of_mem _ hj)
    refine ⟨g.arcs[i].pred :: r, by simp only [predsOf, arc, List.getElem?_eq_getElem hi, h1], ?_⟩
    intro s
    rw [List.mem_cons, h2]
    constructor
    · rintro (rfl | ⟨j, hj, h3⟩)
      · exact ⟨i, List.mem_cons_self .., _, List.getElem?_eq_getElem hi, rfl⟩
      · exact ⟨j, List.mem_cons_of_mem _ hj, h3⟩
    · rintro ⟨j, hj, a, ha, rfl⟩
      rcases List.mem_cons.1 hj with rfl | hj
      · left; rw [List.getElem?_eq_getElem hi] at ha; cases ha; rfl
      · exact Or.inr ⟨j, hj, a, ha, rfl⟩

/-- No arc has been pruned. -/
def Fresh (g : WG) : Prop := ∀ b ∈ g.pruned, b = false

/-- The arcs have no cycle: the states can be ranked so that every arc goes to a greater rank. -/
def Acyclic (g : WG) : Prop := ∃ rk : Nat → Nat, ∀ a ∈ g.arcs, rk a.pred < rk a.succ

/-- Invariant; `o` are the numbers of the arcs added so far. -/
structure TInv (g : WG) (o : List Nat) (st : TopoSt) : Prop where
  lenA : st.added.length = g.arcs.length
  lenC : st.closed.length = g.states.length
  lt : ∀ i ∈ o, i < g.arcs.length
  nd : o.Nodup
  out : st.out.map some = o.map fun i => g.arcs[i]?
  added : ∀ i : Nat, st.added[i]? = some true ↔ i ∈ o
  closed : ∀ s : Nat, st.closed[s]? = some true ↔ ∃ i ∈ o, ∃ a, g.arcs[i]? = some a ∧ a.pred = s
  ord : ∀ o1 i o2, o = o1 ++ i :: o2 → ∀ a, g.arcs[i]? = some a →
    ∀ (j : Nat) b, g.arcs[j]? = some b → b.succ = a.pred → j ∈ o1

theorem ids_fresh {g : WG} (hw : WF g) (hf : Fresh g) (s : Nat) :
    ∃ ids, arcIdsToPred g s = some ids ∧ (∀ i ∈ ids, i < g.arcs.length) ∧
      ∀ i, i ∈ ids ↔ ∃ a, g.arcs[i]? = some a ∧ a.succ = s := by
  refine ⟨_, C61_arcIdsToPred hw s, fun i hi => List.mem_range.1 (List.mem_filter.1 hi).1, ?_⟩
  intro i
  rw [List.mem_filter, List.mem_range]
  simp only [Bool.and_eq_true, beq_iff_eq, Option.map_eq_some_iff]
  constructor
  · rintro ⟨-, h, -⟩; exact h
  · rintro ⟨a, ha, hs⟩
    have hil := (List.getElem?_eq_some_iff.1 ha).1
    refine ⟨hil, ⟨a, ha, hs⟩, ?_⟩
    have hip : i < g.pruned.length := by rw [hw.pruned]; exact hil
    rw [List.getElem?_eq_getElem hip, hf _ (List.getElem_mem hip)]

theorem topoStep_ok {g : WG} (hw : WF g) (hf : Fresh g) {o : List Nat} {st : TopoSt} (h : TInv g o st) {i : Nat}
    (hi : i < g.arcs.length) :
    (∃ st', topoStep g i st = some (st', true) ∧ TInv g (o ++ [i]) st') ∨
    (topoStep g i st = some (st, false) ∧ (i ∈ o ∨
      ∃ a j b, g.arcs[i]? = some a ∧ g.arcs[j]? = some b ∧ b.succ = a.pred ∧ j ∉ o)) := by
  unfold topoStep
  have hia : i < st.added.length := by rw [h.lenA]; exact hi
  have ha : g.arcs[i]? = some g.arcs[i] := List.getElem?_eq_getElem hi
  rw [List.getElem?_eq_getElem hia]
  cases hadd : st.added[i] with
  | true =>
    right
    refine ⟨rfl, Or.inl ((h.added i).1 ?_)⟩
    rw [List.getElem?_eq_getElem hia, hadd]
  | false =>
    have hio : i ∉ o := fun hc => by
      have := (h.added i).2 hc
      rw [List.getElem?_eq_getElem hia, hadd] at this; cases this
    simp only [arc, ha]
    obtain ⟨ids, h1, h2, h3⟩ := ids_fresh hw hf g.arcs[i].pred
    obtain ⟨ps, h4, h5⟩ := predsOf_ok ids h2
    rw [h1]
    simp only [h4]
    obtain ⟨b1, h6, h7⟩ := allSet_ok (v := st.closed) ps (by
      intro s hs
      obtain ⟨j, -, a, haj, rfl⟩ := (h5 s).1 hs
      rw [h.lenC]; exact hw.pred j a haj)
    obtain ⟨b2, h8, h9⟩ := allSet_ok (v := st.added) ids (by
      intro j hj
      rw [h.lenA]; exact h2 j hj)
    rw [h6, h8]
    have hpl : g.arcs[i].pred < st.closed.length := by rw [h.lenC]; exact hw.pred i _ ha
    by_cases hall : ∀ j ∈ ids, j ∈ o
    · left
      have e2 : b2 = true := h9.2 fun j hj => (h.added j).2 (hall j hj)
      have e1 : b1 = true := h7.2 fun s hs => by
        obtain ⟨j, hj, a, haj, rfl⟩ := (h5 s).1 hs
        exact (h.closed _).2 ⟨j, hall j hj, a, haj, rfl⟩
      subst e1 e2
      simp only [hpl, if_true]
      refine ⟨_, rfl, ?_⟩
      refine ⟨by simp [h.lenA], by simp [h.lenC], ?_, ?_, ?_, ?_, ?_, ?_⟩
      · intro j hj
        rcases List.mem_append.1 hj with hj | hj
        · exact h.lt j hj
        · rw [List.mem_singleton.1 hj]; exact hi
      · rw [List.nodup_append]
        exact ⟨h.nd, by simp, by intro x hx y hy hxy; rw [List.mem_singleton.1 hy] at hxy; exact hio (hxy ▸ hx)⟩
      · simp [h.out, ha]
      · intro j
        simp only
        rw [getElem?_set' _ _ _ _ hia, List.mem_append, List.mem_singleton, ← h.added]
        by_cases hj : j = i
        · simp [hj]
        · simp [hj]
      · intro s
        simp only
        rw [getElem?_set' _ _ _ _ hpl]
        constructor
        · intro hs
          split at hs
          · rename_i heq; subst heq
            exact ⟨i, by simp, _, ha, rfl⟩
          · obtain ⟨j, hj, h10⟩ := (h.closed s).1 hs
            exact ⟨j, List.mem_append_left _ hj, h10⟩
        · rintro ⟨j, hj, a, haj, rfl⟩
          rcases List.mem_append.1 hj with hj | hj
          · split
            · rfl
            · exact (h.closed _).2 ⟨j, hj, a, haj, rfl⟩
          · rw [List.mem_singleton.1 hj, ha] at haj
            cases haj
            simp
      · intro o1 k o2 ho a hak j b hb hbs
        rcases nil_or_snoc' o2 with rfl | ⟨m, x, rfl⟩
        · have e3 := List.append_inj' ho (by simp)
          obtain ⟨rfl, e4⟩ := e3
          simp only [List.cons.injEq, and_true] at e4
          subst e4
          rw [ha] at hak; cases hak
          exact hall j ((h3 j).2 ⟨b, hb, hbs⟩)
        · rw [← List.cons_append, ← List.append_assoc] at ho
          exact h.ord o1 k m (List.append_inj_left' ho (by simp)) a hak j b hb hbs
    · right
      have : ∃ j ∈ ids, j ∉ o := by
        apply Classical.byContradiction
        intro hc
        exact hall fun j hj => Classical.byContradiction fun hjo => hc ⟨j, hj, hjo⟩
      obtain ⟨j, hj, hjo⟩ := this
      have e2 : b2 = false := by
        cases b2 with
        | false => rfl
        | true => exact absurd ((h.added j).1 (h9.1 rfl j hj)) hjo
      subst e2
      obtain ⟨b, hb, hbs⟩ := (h3 j).1 hj
      refine ⟨?_, Or.inr ⟨_, j, b, rfl, hb, hbs, hjo⟩⟩
      cases b1 <;> rfl
where
  nil_or_snoc' {α : Type} (l : List α) : l = [] ∨ ∃ m x, l = m ++ [x] := by
    rcases l.eq_nil_or_concat with h | ⟨m, x, h⟩
    · exact Or.inl h
    · exact Or.inr ⟨m, x, by simpa using h⟩

/-- One pass: the invariant is kept; the flag tells whether an arc was added; an arc that was ready at the
beginning is added. -/
theorem topoPass_ok {g : WG} (hw : WF g) (hf : Fresh g) : ∀ (l : List Nat) (o : List Nat) (st : TopoSt) (fl : Bool),
    (∀ i ∈ l, i < g.arcs.length) → TInv g o st →
    ∃ o' st' fl', topoPass g l (st, fl) = some (st', fl') ∧ TInv g (o ++ o') st' ∧ (fl' = true ↔ fl = true ∨ o' ≠ []) ∧
      ∀ i ∈ l, i ∉ o → (∀ a, g.arcs[i]? = some a → ∀ (j : Nat) b, g.arcs[j]? = some b → b.succ = a.pred → j ∈ o) → i ∈ o' := by
  intro l
  induction l with
  | nil => intro o st fl _ h; exact ⟨[], st, fl, rfl, by simpa using h, by simp, by simp⟩
  | cons i l ih =>
    intro o st fl hl h
    rcases topoStep_ok hw hf h (hl i (List.mem_cons_self ..)) with ⟨st1, h1, h2⟩ | ⟨h1, h2⟩
    · obtain ⟨o', st', fl', h3, h4, h5, h6⟩ := ih (o ++ [i]) st1 (fl || true) (fun j hj => hl j (List.mem_cons_of_mem _ hj)) h2
      refine ⟨i :: o', st', fl', by rw [topoPass, h1]; exact h3, by simpa using h4, ?_, ?_⟩
      · rw [h5]; simp
      · intro k hk hko hr
        rcases List.mem_cons.1 hk with rfl | hk
        · exact List.mem_cons_self ..
        · by_cases hki : k = i
          · subst hki; exact List.mem_cons_self ..
          · exact List.mem_cons_of_mem _ (h6 k hk (by simp [hko, hki]) fun a ha j b hb hbs =>
              List.mem_append_left _ (hr a ha j b hb hbs))
    · obtain ⟨o', st', fl', h3, h4, h5, h6⟩ := ih o st (fl || false) (fun j hj => hl j (List.mem_cons_of_mem _ hj)) h
      refine ⟨o', st', fl', by rw [topoPass, h1]; exact h3, h4, by rw [h5]; simp, ?_⟩
      intro k hk hko hr
      rcases List.mem_cons.1 hk with rfl | hk
      · rcases h2 with h2 | ⟨a, j, b, ha, hb, hbs, hjo⟩
        · exact absurd h2 hko
        · exact absurd (hr a ha j b hb hbs) hjo
      · exact h6 k hk hko hr

theorem TInv.length {g : WG} {o : List Nat} {st : TopoSt} (h : TInv g o st) : st.out.length = o.length := by
  have := congrArg List.length h.out
  simpa using this

theorem topoLoop_ok {g : WG} (hw : WF g) (hf : Fresh g) : ∀ (fuel : Nat) (o : List Nat) (st : TopoSt), TInv g o st →
    g.arcs.length < o.length + fuel →
    ∃ o' st', topoLoop g fuel st = some st' ∧ TInv g o' st' ∧ (Acyclic g → o'.length = g.arcs.length) := by
  intro fuel
  induction fuel with
  | zero =>
    intro o st h hfu
    unfold topoLoop
    rw [h.length, if_neg (by omega)]
    have hle := List.Nodup.length_le_of_subset (l₂ := List.range g.arcs.length) h.nd (fun i hi => List.mem_range.2 (h.lt i hi))
    rw [List.length_range] at hle
    exact ⟨o, st, rfl, h, fun _ => by omega⟩
  | succ fuel ih =>
    intro o st h hfu
    have hle := List.Nodup.length_le_of_subset (l₂ := List.range g.arcs.length) h.nd (fun i hi => List.mem_range.2 (h.lt i hi))
    rw [List.length_range] at hle
    unfold topoLoop
    rw [h.length]
    by_cases hlt : o.length < g.arcs.length
    · rw [if_pos hlt]
      obtain ⟨o', st', fl', h1, h2, h3, h4⟩ := topoPass_ok hw hf (List.range g.arcs.length) o st false
        (fun i hi => List.mem_range.1 hi) h
      simp only [h1]
      cases fl' with
      | true =>
        have hne : o' ≠ [] := by have := h3.1 rfl; simpa using this
        have : 0 < o'.length := by cases o' with
          | nil => exact absurd rfl hne
          | cons _ _ => simp
        exact ih (o ++ o') st' h2 (by rw [List.length_append]; omega)
      | false =>
        have hnil : o' = [] := Classical.byContradiction fun hc => by
          have := h3.2 (Or.inr hc); cases this
        subst hnil
        refine ⟨o, st', rfl, by simpa using h2, ?_⟩
        rintro ⟨rk, hrk⟩
        -- an arc not added whose predecessor has the least rank is ready
        exfalso
        have hex : ∃ i, i < g.arcs.length ∧ i ∉ o := by
          apply Classical.byContradiction
          intro hc
          have := List.Nodup.length_le_of_subset (l₁ := List.range g.arcs.length) (l₂ := o) List.nodup_range (by
            intro i hi
            exact Classical.byContradiction fun hio => hc ⟨i, List.mem_range.1 hi, hio⟩)
          rw [List.length_range] at this
          omega
        have key : ∀ (n i : Nat) (a : Arc), g.arcs[i]? = some a → i ∉ o → rk a.pred ≤ n → False := by
          intro n
          induction n with
          | zero =>
            intro i a ha hio hn
            refine absurd (h4 i (List.mem_range.2 (List.getElem?_eq_some_iff.1 ha).1) hio ?_) (by simp)
            intro a' ha' j b hb hbs
            rw [ha] at ha'; cases ha'
            have := hrk b (List.mem_of_getElem? hb)
            rw [hbs] at this; omega
          | succ n ihn =>
            intro i a ha hio hn
            refine absurd (h4 i (List.mem_range.2 (List.getElem?_eq_some_iff.1 ha).1) hio ?_) (by simp)
            intro a' ha' j b hb hbs
            rw [ha] at ha'; cases ha'
            have := hrk b (List.mem_of_getElem? hb)
            rw [hbs] at this
            exact Classical.byContradiction fun hjo => ihn j b hb hjo (by omega)
        obtain ⟨i, hi, hio⟩ := hex
        exact key _ i _ (List.getElem?_eq_getElem hi) hio (Nat.le_refl _)
    · rw [if_neg hlt]
      exact ⟨o, st, rfl, h, fun _ => by omega⟩

/-- **C60 (topological order).** On a consistent graph without pruned arcs `orderArcsTopol` ends.  If the
graph has no cycles its arcs become a topologically ordered permutation of the given ones; otherwise
they are either such a permutation or left as they were.  Nothing else changes. -/
theorem C60_orderArcsTopol_partial {g : WG} (hw : WF g) (hf : Fresh g) :
    ∃ g', orderArcsTopol g = some g' ∧ g' = { g with arcs := g'.arcs } ∧ g'.arcs.Perm g.arcs ∧
      (g' = g ∨ Topo g') ∧ (Acyclic g → Topo g') := by
  have h0 : TInv g [] ⟨[], List.replicate g.arcs.length false, List.replicate g.states.length false⟩ := by
    refine ⟨by simp, by simp, by simp, List.nodup_nil, rfl, ?_, ?_, ?_⟩
    · intro i; simp [List.getElem?_replicate]
    · intro s; simp [List.getElem?_replicate]
    · intro o1 i o2 h; simp at h
  obtain ⟨o, st, h1, h2, h3⟩ := topoLoop_ok hw hf (g.arcs.length + 1) [] _ h0 (by simp)
  unfold orderArcsTopol
  rw [h1]
  simp only
  by_cases hl : st.out.length = g.arcs.length
  · rw [if_pos hl]
    have hol : o.length = g.arcs.length := by rw [← h2.length]; exact hl
    have hmem : ∀ i, i < g.arcs.length → i ∈ o := by
      intro i hi
      apply Classical.byContradiction
      intro hio
      have h4 : (i :: o).Nodup := List.nodup_cons.2 ⟨hio, h2.nd⟩
      have := List.Nodup.length_le_of_subset (l₂ := List.range g.arcs.length) h4 (by
        intro j hj
        rcases List.mem_cons.1 hj with rfl | hj
        · exact List.mem_range.2 hi
        · exact List.mem_range.2 (h2.lt j hj))
      rw [List.length_range, List.length_cons] at this
      omega
    have hpo : o.Perm (List.range g.arcs.length) := by
      rw [List.perm_ext_iff_of_nodup h2.nd List.nodup_range]
      intro i
      exact ⟨fun h => List.mem_range.2 (h2.lt i h), fun h => hmem i (List.mem_range.1 h)⟩
    have hperm : (st.out.map some).Perm (g.arcs.map some) := by
      rw [h2.out]
      have e1 : (List.range g.arcs.length).map (fun i => g.arcs[i]?) = g.arcs.map some := by
        apply List.ext_getElem?
        intro i
        by_cases hi : i < g.arcs.length
        · simp [hi]
        · rw [List.getElem?_eq_none_iff.2 (by simp; omega), List.getElem?_eq_none_iff.2 (by simp; omega)]
      rw [← e1]
      exact hpo.map _
    have hperm' : st.out.Perm g.arcs := by
      have := hperm.filterMap id
      simpa [List.filterMap_map] using this
    have htopo : Topo { g with arcs := st.out } := by
      intro i j a b ha hb hij hbs
      simp only at ha hb
      have hio : i < o.length := by rw [← h2.length]; exact (List.getElem?_eq_some_iff.1 ha).1
      have hjo : j < o.length := by rw [← h2.length]; exact (List.getElem?_eq_some_iff.1 hb).1
      have hget : ∀ (k : Nat) (c : Arc), st.out[k]? = some c → ∀ hk : k < o.length, g.arcs[o[k]]? = some c := by
        intro k c hc hk
        have := congrArg (fun l : List _ => l[k]?) h2.out
        simp only [List.getElem?_map, hc, List.getElem?_eq_getElem hk, Option.map_some, Option.some.injEq] at this
        exact this.symm
      have h5 := h2.ord (o.take i) o[i] (o.drop (i + 1)) (by
        rw [← List.drop_eq_getElem_cons hio, List.take_append_drop]) a (hget i a ha hio) o[j] b (hget j b hb hjo) hbs
      obtain ⟨k, hk, hkj⟩ := List.getElem_of_mem h5
      rw [List.length_take] at hk
      rw [List.getElem_take] at hkj
      have hnd := List.pairwise_iff_getElem.1 h2.nd k j (by omega) hjo (by omega)
      exact hnd hkj
    exact ⟨_, rfl, rfl, hperm', Or.inr htopo, fun _ => htopo⟩
  · rw [if_neg hl]
    refine ⟨g, rfl, rfl, List.Perm.refl _, Or.inl rfl, ?_⟩
    intro hac
    exact absurd (by rw [h2.length]; exact h3 hac) hl

/-- The full claim: the ordered graph is consistent, and its arcs keep their score components. -/
def C60_full : Prop :=
  ∀ g : WG, WF g → Fresh g → Acyclic g → ∃ g', orderArcsTopol g = some g' ∧ WF g' ∧
    (g'.arcs.zip g'.comps).Perm (g.arcs.zip g.comps)

/-- The graph with the arcs `1→2` and `0→1`, in this order. -/
def exTopol : WG :=
  { arcs := [⟨1, 2, -1, [['b']]⟩, ⟨0, 1, -2, [['a']]⟩], pruned := [false, false],
    states := [⟨[], [1]⟩, ⟨[1], [0]⟩, ⟨[0], []⟩], final := [2], init := 0, weights := [], comps := [[-1], [-2]] }

theorem exTopol_wf : WF exTopol :=
  wf_of (by decide) (by decide) (by decide) (by decide) (by decide +kernel) (by decide +kernel)

example : Fresh exTopol ∧ Acyclic exTopol := ⟨by unfold Fresh; decide, id, by decide⟩

theorem exTopol_ordered : orderArcsTopol exTopol =
    some { exTopol with arcs := [⟨0, 1, -2, [['a']]⟩, ⟨1, 2, -1, [['b']]⟩] } := by decide +kernel

/-- The full claim is false: only the vector of arcs is reordered.  The lists of arcs of the states and
the score components (which `print` writes next to the arcs) still refer to the old numbers. -/
theorem C60_counterexample : ¬ C60_full := by
  intro h
  obtain ⟨g', h1, -, h3⟩ := h exTopol exTopol_wf (by unfold Fresh; decide) ⟨id, by decide⟩
  rw [exTopol_ordered] at h1
  cases h1
  have := h3.mem_iff (a := ((⟨0, 1, -2, [['a']]⟩ : Arc), [(-1 : Score)]))
  revert this
  decide +kernel

/-- After the reordering the arcs that leave the initial state are wrong. -/
example : ∃ g', orderArcsTopol exTopol = some g' ∧ arcIdsToSucc g' 0 = some [1] ∧
    g'.arcs[1]? = some ⟨1, 2, -1, [['b']]⟩ := ⟨_, exTopol_ordered, by decide +kernel, rfl⟩

end Thot.WordGraph
