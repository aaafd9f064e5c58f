import Verif.WordGraph.NbProps
import Verif.WordGraph.WeightProps
/-! C170: the strings and score components of n-best lists. -/
namespace Thot.WordGraph

/-! ### Model -/

/-- The inner loop `scoreComps[k]+=scrCompsVec[wgArcId][k]`, `WordGraph.cc:637-638`; `none` if the vector of the arc is shorter. -/
def addComps : List Score → List Score → Option (List Score)
  | [], _ => some []
  | _ :: _, [] => none
  | x :: xs, y :: ys => (addComps xs ys).map fun r => (x + y) :: r

/-- `WordGraph.cc:632-640`, for the arcs after the first one. -/
def compsLoop (g : WG) : List Nat → List Score → Option (List Score)
  | [], sc => some sc
  | i :: l, sc => match g.comps[i]? with
    | none => compsLoop g l sc
    | some c => match addComps sc c with
      | none => none
      | some sc => compsLoop g l sc

/-- The components given by `stringAssociatedToHyp`, `WordGraph.cc:612-645`. -/
def hypComps (g : WG) : Hyp → Option (List Score)
  | [] => some []
  | i :: l => compsLoop g l (g.comps[i]?.getD [])

/-- The loop that builds the output of `nbSearch`, `WordGraph.cc:564-594`: `nblist` and `scoreCompsVec`. Hypotheses without components
add nothing to the latter. -/
def nbOutput (g : WG) : List (Score × Hyp) → Option (List (Score × Str) × List (List Score))
  | [] => some ([], [])
  | e :: es => match hypString g e.2, hypComps g e.2, nbOutput g es with
    | some s, some c, some r => some ((e.1, s) :: r.1, if c.isEmpty then r.2 else c :: r.2)
    | _, _, _ => none

/-- `obtainNbestList`, `WordGraph.cc:360-391`: `nblist` and `scoreCompsVec`. -/
def nbestFull (g : WG) (max : Option Nat) (len fuel : Nat) : Option (List (Score × Str) × List (List Score)) :=
  (nbestList g max len fuel).bind (nbOutput g)

/-! ### Specification -/

/-- Component `j` of an arc. -/
def comp (g : WG) (i j : Nat) : Score := ((g.comps[i]?.getD [])[j]?).getD 0

/-- The words of the arcs of a path. -/
def pathWords (p : List (Nat × Arc)) : List Str := p.flatMap fun e => e.2.words

/-! ### Proofs -/

theorem addComps_ok : ∀ (xs ys : List Score), xs.length ≤ ys.length →
    ∃ r, addComps xs ys = some r ∧ r.length = xs.length ∧ ∀ j, j < xs.length → r[j]?.getD 0 = xs[j]?.getD 0 + ys[j]?.getD 0 := by
  intro xs
  induction xs with
  | nil => intro ys _; exact ⟨[], by cases ys <;> rfl, rfl, by simp⟩
  | cons x xs ih =>
    intro ys h
    cases ys with
    | nil => simp at h
    | cons y ys =>
      obtain ⟨r, h1, h2, h3⟩ := ih ys (by simpa using h)
      refine ⟨(x + y) :: r, by rw [addComps, h1]; rfl, by simp [h2], ?_⟩
      intro j hj
      cases j with
      | zero => simp
      | succ j => simpa using h3 j (by simpa using hj)

theorem compsLoop_ok {g : WG} {m : Nat} (hm : ∀ c ∈ g.comps, c.length = m) : ∀ (l : List Nat) (sc : List Score), sc.length = m →
    (∀ i ∈ l, i < g.comps.length) →
    ∃ r, compsLoop g l sc = some r ∧ r.length = m ∧ ∀ j, j < m → r[j]?.getD 0 = sc[j]?.getD 0 + (l.map fun i => comp g i j).sum := by
  intro l
  induction l with
  | nil => intro sc hs _; exact ⟨sc, rfl, hs, fun j _ => (Rat.add_zero _).symm⟩
  | cons i l ih =>
    intro sc hs hl
    have hi := hl i List.mem_cons_self
    have hc := hm _ (List.getElem_mem hi)
    obtain ⟨r1, h1, h2, h3⟩ := addComps_ok sc g.comps[i] (by rw [hs, hc]; exact Nat.le_refl _)
    obtain ⟨r, h4, h5, h6⟩ := ih r1 (by rw [h2, hs]) fun k hk => hl k (List.mem_cons_of_mem _ hk)
    refine ⟨r, ?_, h5, ?_⟩
    · rw [compsLoop, List.getElem?_eq_getElem hi]
      simp only
      rw [h1]; exact h4
    · intro j hj
      rw [h6 j hj, h3 j (by rw [hs]; exact hj), List.map_cons, List.sum_cons]
      have : comp g i j = (g.comps[i][j]?).getD 0 := by unfold comp; rw [List.getElem?_eq_getElem hi]; rfl
      rw [this]; grind

theorem hypComps_ok {g : WG} {m : Nat} (hm : ∀ c ∈ g.comps, c.length = m) (h : Hyp) (hne : h ≠ [])
    (hl : ∀ i ∈ h, i < g.comps.length) :
    ∃ r, hypComps g h = some r ∧ r.length = m ∧ ∀ j, j < m → r[j]?.getD 0 = (h.map fun i => comp g i j).sum := by
  cases h with
  | nil => exact absurd rfl hne
  | cons i l =>
    have hi := hl i List.mem_cons_self
    have hc := hm _ (List.getElem_mem hi)
    obtain ⟨r, h4, h5, h6⟩ := compsLoop_ok hm l (g.comps[i]?.getD []) (by rw [List.getElem?_eq_getElem hi]; exact hc)
      fun k hk => hl k (List.mem_cons_of_mem _ hk)
    refine ⟨r, h4, h5, fun j hj => ?_⟩
    rw [h6 j hj, List.map_cons, List.sum_cons]; rfl

theorem join_app : ∀ (xs ys : List Str), xs ≠ [] → ys ≠ [] → joinWords (xs ++ ys) = joinWords xs ++ ' ' :: joinWords ys := by
  intro xs
  induction xs with
  | nil => intro ys h; exact absurd rfl h
  | cons x xs ih =>
    intro ys _ hy
    cases xs with
    | nil =>
      cases ys with
      | nil => exact absurd rfl hy
      | cons y ys => rfl
    | cons z xs =>
      have := ih ys (by simp) hy
      have e1 : joinWords (x :: z :: (xs ++ ys)) = x ++ ' ' :: joinWords (z :: xs ++ ys) := rfl
      have e2 : joinWords (x :: z :: xs) = x ++ ' ' :: joinWords (z :: xs) := rfl
      rw [List.cons_append, List.cons_append, e1, e2, this]
      simp

theorem hypString_ok {g : WG} (hwd : ∀ a ∈ g.arcs, a.words ≠ []) : ∀ (p : List (Nat × Arc)),
    (∀ e ∈ p, g.arcs[e.1]? = some e.2) → hypString g (p.map Prod.fst) = some (joinWords (pathWords p)) := by
  intro p
  induction p with
  | nil => intro _; rfl
  | cons e p ih =>
    intro h
    have he := h e List.mem_cons_self
    have := ih fun x hx => h x (List.mem_cons_of_mem _ hx)
    have hw := hwd _ (List.mem_of_getElem? he)
    cases p with
    | nil =>
      simp only [List.map_cons, List.map_nil, hypString, arc, he, Option.map_some]
      simp [pathWords]
    | cons e2 p =>
      have he2 := h e2 (List.mem_cons_of_mem _ List.mem_cons_self)
      have hw2 := hwd _ (List.mem_of_getElem? he2)
      rw [List.map_cons, List.map_cons] at *
      rw [hypString, this]
      · simp only [arc, he]
        have : pathWords (e :: e2 :: p) = e.2.words ++ pathWords (e2 :: p) := by simp [pathWords]
        rw [this, join_app _ _ hw]
        intro hc
        simp only [pathWords, List.flatMap_cons, List.append_eq_nil_iff] at hc
        exact hw2 hc.1
      · simp

/-- Weighted sum of components, indexed. -/
theorem dot_sum : ∀ (ws c : List Score), ws.length = c.length →
    dot ws c = ((List.range ws.length).map fun j => ws[j]?.getD 0 * c[j]?.getD 0).sum := by
  intro ws
  induction ws with
  | nil => intro c _; rfl
  | cons w ws ih =>
    intro c h
    cases c with
    | nil => simp at h
    | cons x c =>
      rw [dot, ih c (by simpa using h), List.length_cons, List.range_succ_eq_map, List.map_cons, List.sum_cons, List.map_map]
      simp [Function.comp_def]

theorem sum_add (l : List Nat) (f h : Nat → Score) : (l.map fun j => f j + h j).sum = (l.map f).sum + (l.map h).sum := by
  induction l with
  | nil => exact (Rat.add_zero _).symm
  | cons x l ih => simp only [List.map_cons, List.sum_cons, ih]; grind

theorem sum_zero (l : List Nat) (f : Nat → Score) (h : ∀ j ∈ l, f j = 0) : (l.map f).sum = 0 := by
  induction l with
  | nil => simp
  | cons x l ih =>
    simp only [List.map_cons, List.sum_cons, h x List.mem_cons_self, ih fun j hj => h j (List.mem_cons_of_mem _ hj)]; exact Rat.add_zero _

theorem score_dot {g : WG} (hw : WF g) (ws : List (Str × Score)) (hm : ∀ c ∈ g.comps, c.length = ws.length) :
    ∀ p : List (Nat × Arc), (∀ e ∈ p, (setCompWeights g ws).arcs[e.1]? = some e.2) →
    score own p = ((List.range ws.length).map fun j =>
      (ws[j]?.map Prod.snd).getD 0 * ((p.map Prod.fst).map fun i => comp g i j).sum).sum := by
  intro p
  induction p with
  | nil => intro _; rw [sum_zero]; · rfl
           · intro j _; simp
  | cons e p ih =>
    intro h
    have he := h e List.mem_cons_self
    have hlt : e.1 < g.arcs.length := by
      have := (List.getElem?_eq_some_iff.1 he).1
      rwa [(C63_setCompWeights hw ws).2.1] at this
    have hlc : e.1 < g.comps.length := by rw [hw.comps]; exact hlt
    have hc := hm _ (List.getElem_mem hlc)
    rw [score, ih fun x hx => h x (List.mem_cons_of_mem _ hx)]
    have hs : own e.1 e.2 = dot (ws.map Prod.snd) g.comps[e.1] := by
      have h2 : (setCompWeights g ws).arcs[e.1]? = some { g.arcs[e.1] with score := dot (ws.map Prod.snd) g.comps[e.1] } := by
        simp only [setCompWeights, getElem?_rescore, List.getElem?_eq_getElem hlt, List.getElem?_eq_getElem hlc, Option.map_some, List.length_map]
        rw [if_pos hc]
      rw [h2] at he; rw [← Option.some.inj he]; rfl
    rw [hs, dot_sum _ _ (by simp [hc]), List.length_map, ← sum_add]
    congr 1
    apply List.map_congr_left
    intro j _
    have : comp g e.1 j = (g.comps[e.1][j]?).getD 0 := by unfold comp; rw [List.getElem?_eq_getElem hlc]; rfl
    rw [List.map_cons, List.map_cons, List.sum_cons, this, List.getElem?_map]
    grind

theorem path_arcs {g : WG} {s t : Nat} {p : List (Nat × Arc)} (h : Path (Live g) s p t) : ∀ e ∈ p, g.arcs[e.1]? = some e.2 := by
  induction h with
  | nil => intro e he; cases he
  | cons hb _ ih =>
    intro e he
    rcases List.mem_cons.1 he with rfl | he
    · exact hb.1
    · exact ih e he

/-- **C170 (partial).** After the weights of the components are set, with as many components in every arc as weights (at least one) and at
least one word in every arc, each element of the n-best list comes from a path of the graph: its string is the words of the path
separated by single blanks, the vector of components at the same position of the other list is the sum of the components of its arcs, and
its score is the score of the initial state plus the weighted sum of that vector. Missing: graphs with arcs without components. -/
theorem C170_nbest_components_partial (g0 : WG) (ws : List (Str × Score)) (hw : WF g0) (ht : Topo (setCompWeights g0 ws)) (hf : FinalOk g0)
    (hne : ws ≠ []) (hm : ∀ c ∈ g0.comps, c.length = ws.length) (hwd : ∀ a ∈ g0.arcs, a.words ≠ []) (max : Option Nat) (len fuel : Nat)
    (hfuel : enough g0 ≤ fuel) :
    ∃ nb cv, nbestFull (setCompWeights g0 ws) max len fuel = some (nb, cv) ∧ nb.length ≤ len ∧ cv.length = nb.length ∧
      nb.Pairwise (fun x y => y.1 ≤ x.1) ∧
      ∀ (k : Nat) (sc : Score) (str : Str), nb[k]? = some (sc, str) → ∃ p c, FirstFinal (setCompWeights g0 ws) p ∧
        str = joinWords (pathWords p) ∧ cv[k]? = some c ∧ c.length = ws.length ∧
        (∀ j, j < ws.length → c[j]?.getD 0 = (p.map fun e => comp g0 e.1 j).sum) ∧
        sc = g0.init + ((List.range ws.length).map fun j => (ws[j]?.map Prod.snd).getD 0 * c[j]?.getD 0).sum := by
  have h63 := C63_setCompWeights hw ws
  simp only at h63
  obtain ⟨-, hl, hpr, hst, hfin, hin, hco, harc⟩ := h63
  have harcs : ∀ (i : Nat) (a : Arc), (setCompWeights g0 ws).arcs[i]? = some a → ∃ b, g0.arcs[i]? = some b ∧ a.pred = b.pred ∧
      a.succ = b.succ ∧ a.words = b.words := by
    intro i a h
    have hlt : i < g0.arcs.length := by have := (List.getElem?_eq_some_iff.1 h).1; rwa [hl] at this
    have hlc : i < g0.comps.length := by rw [hw.comps]; exact hlt
    have := harc i _ _ (List.getElem?_eq_getElem hlt) (List.getElem?_eq_getElem hlc)
    rw [this] at h; cases h
    exact ⟨_, List.getElem?_eq_getElem hlt, rfl, rfl, rfl⟩
  have hmapf : ∀ (i : Nat), ((setCompWeights g0 ws).arcs[i]?.map Arc.succ) = (g0.arcs[i]?.map Arc.succ) ∧
      ((setCompWeights g0 ws).arcs[i]?.map Arc.pred) = (g0.arcs[i]?.map Arc.pred) := by
    intro i
    cases h : (setCompWeights g0 ws).arcs[i]? with
    | none =>
      have : g0.arcs[i]? = none := by
        rw [List.getElem?_eq_none_iff] at h ⊢; rw [hl] at h; exact h
      rw [this]; exact ⟨rfl, rfl⟩
    | some a =>
      obtain ⟨b, h1, h2, h3, _⟩ := harcs i a h
      rw [h1]; simp [h2, h3]
  have hw' : WF (setCompWeights g0 ws) := by
    refine ⟨by rw [hpr, hl, hw.pruned], by rw [hco, hl, hw.comps], ?_, ?_, ?_, ?_⟩
    · intro i a h
      obtain ⟨b, h1, h2, h3, _⟩ := harcs i a h
      rw [hst, h2]; exact hw.pred i b h1
    · intro i a h
      obtain ⟨b, h1, h2, h3, _⟩ := harcs i a h
      rw [hst, h3]; exact hw.succ i b h1
    · intro s d h
      rw [hst] at h
      rw [hw.toPred s d h, hl]
      apply List.filter_congr; intro i _; rw [(hmapf i).1]
    · intro s d h
      rw [hst] at h
      rw [hw.toSucc s d h, hl]
      apply List.filter_congr; intro i _; rw [(hmapf i).2]
  have hf' : FinalOk (setCompWeights g0 ws) := by intro f h; rw [hst]; rw [hfin] at h; exact hf f h
  have hwd' : ∀ a ∈ (setCompWeights g0 ws).arcs, a.words ≠ [] := by
    intro a ha
    obtain ⟨i, hi⟩ := List.getElem?_of_mem ha
    obtain ⟨b, h1, _, _, h4⟩ := harcs i a hi
    rw [h4]; exact hwd b (List.mem_of_getElem? h1)
  obtain ⟨res, h1, h2, h3, -, h5⟩ := C62_nbest_sound ht hw' hf' max len fuel (by unfold enough at hfuel ⊢; rw [hl]; exact hfuel)
  have key : ∀ es : List (Score × Hyp), (∀ e ∈ es, ∃ p, e.2 = p.map Prod.fst ∧ FirstFinal (setCompWeights g0 ws) p ∧
      e.1 = (setCompWeights g0 ws).init + score own p) →
      ∃ nb cv, nbOutput (setCompWeights g0 ws) es = some (nb, cv) ∧ nb.map Prod.fst = es.map Prod.fst ∧ cv.length = nb.length ∧
      ∀ (k : Nat) (sc : Score) (str : Str), nb[k]? = some (sc, str) → ∃ p c, FirstFinal (setCompWeights g0 ws) p ∧
        str = joinWords (pathWords p) ∧ cv[k]? = some c ∧ c.length = ws.length ∧
        (∀ j, j < ws.length → c[j]?.getD 0 = (p.map fun e => comp g0 e.1 j).sum) ∧
        sc = g0.init + ((List.range ws.length).map fun j => (ws[j]?.map Prod.snd).getD 0 * c[j]?.getD 0).sum := by
    intro es
    induction es with
    | nil => intro _; exact ⟨[], [], rfl, rfl, rfl, by intro k sc str h; simp at h⟩
    | cons e es ih =>
      intro h
      obtain ⟨nb, cv, k1, k2, k3, k4⟩ := ih fun x hx => h x (List.mem_cons_of_mem _ hx)
      obtain ⟨p, hp1, hp2, hp3⟩ := h e List.mem_cons_self
      obtain ⟨hpne, ⟨f, hff, hpath⟩, _⟩ := id hp2
      have hpa := path_arcs hpath
      have hs := hypString_ok hwd' p hpa
      obtain ⟨c, hc1, hc2, hc3⟩ := hypComps_ok (g := setCompWeights g0 ws) (m := ws.length) (by rw [hco]; exact hm) (p.map Prod.fst)
        (by simpa using hpne) (by
          intro i hi
          obtain ⟨x, hx, rfl⟩ := List.mem_map.1 hi
          rw [hco, hw.comps, ← hl]
          exact (List.getElem?_eq_some_iff.1 (hpa x hx)).1)
      have hcne : c.isEmpty = false := by
        cases c with
        | nil => exact absurd (List.eq_nil_of_length_eq_zero hc2.symm) hne
        | cons => rfl
      have hcomp : ∀ i j, comp (setCompWeights g0 ws) i j = comp g0 i j := by intro i j; unfold comp; rw [hco]
      refine ⟨(e.1, joinWords (pathWords p)) :: nb, c :: cv, ?_, by simp [k2], by simp [k3], ?_⟩
      · rw [nbOutput, hp1, hs, hc1, k1]
        simp [hcne]
      · intro k sc str hk
        cases k with
        | zero =>
          simp only [List.getElem?_cons_zero, Option.some.injEq, Prod.mk.injEq] at hk
          obtain ⟨rfl, rfl⟩ := hk
          refine ⟨p, c, hp2, rfl, rfl, hc2, ?_, ?_⟩
          · intro j hj
            rw [hc3 j hj, List.map_map]
            simp [Function.comp_def, hcomp]
          · rw [hp3, hin, score_dot hw ws hm p hpa]
            congr 2
            apply List.map_congr_left
            intro j hj
            rw [hc3 j (List.mem_range.1 hj)]
            simp [hcomp]
        | succ k => exact k4 k sc str hk
  obtain ⟨nb, cv, k1, k2, k3, k4⟩ := key res h5
  have hlen : nb.length = res.length := by have := congrArg List.length k2; simpa using this
  refine ⟨nb, cv, by unfold nbestFull; rw [h1]; exact k1, by rw [hlen]; exact h2, k3, ?_, k4⟩
  have : (nb.map Prod.fst).Pairwise (fun x y => y ≤ x) := by rw [k2]; exact List.pairwise_map.2 h3
  exact List.pairwise_map.1 this

/-- **C170, full statement:** the two lists always have the same length. -/
def C170_full : Prop :=
  ∀ g : WG, WF g → Topo g → FinalOk g → ∀ max len fuel, enough g ≤ fuel →
    ∃ nb cv, nbestFull g max len fuel = some (nb, cv) ∧ cv.length = nb.length

/-- Two arcs from the initial state to state 1; only the second one has components. -/
def exMixed : WG := ⟨[⟨0, 1, -1, [['a']]⟩, ⟨0, 1, -2, [['b']]⟩], [false, false], [⟨[], [0, 1]⟩, ⟨[0, 1], []⟩], [1], 0, [], [[], [-2]]⟩

theorem C170_counterexample : ¬ C170_full := by
  intro h
  obtain ⟨nb, cv, h1, h2⟩ := h exMixed (wf_of (by decide) (by decide) (by decide) (by decide) (by decide +kernel) (by decide +kernel))
    (topo_of (by decide +kernel)) (by unfold FinalOk; decide) none 2 27 (by decide)
  have he : nbestFull exMixed none 2 27 = some ([(-1, ['a']), (-2, ['b'])], [[-2]]) := by decide +kernel
  rw [he] at h1; cases h1
  exact absurd h2 (by decide)

/-- A path whose first arc has more components than a later one: undefined behaviour. -/
example : nbestFull ⟨[⟨0, 1, -1, [['a']]⟩, ⟨1, 2, -2, [['b']]⟩], [false, false], [⟨[], [0]⟩, ⟨[0], [1]⟩, ⟨[1], []⟩], [2], 0, [],
    [[-2], []]⟩ none 2 27 = none := by decide +kernel

/-- Non-vacuity: two arcs with two components each. -/
def exComps : WG := ⟨[⟨0, 1, 0, [['a']]⟩, ⟨1, 2, 0, [['b'], ['c']]⟩], [false, false], [⟨[], [0]⟩, ⟨[0], [1]⟩, ⟨[1], []⟩], [2], -1, [],
    [[-2, 1], [-1, 3]]⟩

def exCompsW : List (Str × Score) := [(['u'], 2), (['v'], 1)]

example : WF exComps ∧ Topo (setCompWeights exComps exCompsW) ∧ FinalOk exComps ∧ exCompsW ≠ [] ∧
    (∀ c ∈ exComps.comps, c.length = exCompsW.length) ∧ (∀ a ∈ exComps.arcs, a.words ≠ []) :=
  ⟨wf_of (by decide) (by decide) (by decide) (by decide) (by decide +kernel) (by decide +kernel), topo_of (by decide +kernel),
    (by unfold FinalOk; decide), by decide, by decide, by decide⟩

example : nbestFull (setCompWeights exComps exCompsW) none 1 27 = some ([(-3, ['a', ' ', 'b', ' ', 'c'])], [[-3, 4]]) := by decide +kernel

end Thot.WordGraph
