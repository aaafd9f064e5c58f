import Verif.WordGraph.BuildProps

/-! Lemmas about the A* search of `nbSearch`. -/

namespace Thot.WordGraph

/-- Ordered by decreasing score. -/
def Desc (l : List (Score × Hyp)) : Prop := l.Pairwise fun x y => y.1 ≤ x.1

theorem nil_or_snoc {α : Type} (l : List α) : l = [] ∨ ∃ m x, l = m ++ [x] := by
  rcases l.eq_nil_or_concat with h | ⟨m, x, h⟩
  · exact Or.inl h
  · exact Or.inr ⟨m, x, by simpa using h⟩

theorem mmInsert_perm (s : Score) (h : Hyp) (l : List (Score × Hyp)) : (mmInsert s h l).Perm ((s, h) :: l) := by
  induction l with
  | nil => exact List.Perm.refl _
  | cons e l ih =>
    rw [mmInsert]
    split
    · exact List.Perm.refl _
    · exact (ih.cons e).trans (List.Perm.swap ..)

theorem mmInsert_desc (s : Score) (h : Hyp) (l : List (Score × Hyp)) (hl : Desc l) : Desc (mmInsert s h l) := by
  induction l with
  | nil => exact List.pairwise_singleton _ _
  | cons e l ih =>
    obtain ⟨h1, h2⟩ := List.pairwise_cons.1 hl
    rw [mmInsert]
    split
    · rename_i hgt
      refine List.pairwise_cons.2 ⟨?_, hl⟩
      intro x hx
      rcases List.mem_cons.1 hx with rfl | hx
      · exact Rat.le_of_lt hgt
      · exact Rat.le_trans (h1 x hx) (Rat.le_of_lt hgt)
    · rename_i hgt
      refine List.pairwise_cons.2 ⟨?_, ih h2⟩
      intro x hx
      rcases List.mem_cons.1 ((mmInsert_perm s h l).mem_iff.1 hx) with rfl | hx
      · simp only; grind
      · exact h1 x hx

theorem nbPush_desc (max : Option Nat) (s : Score) (h : Hyp) (l : List (Score × Hyp)) (hl : Desc l) :
    Desc (nbPush max s h l) := by
  unfold nbPush
  cases max with
  | none => exact mmInsert_desc s h l hl
  | some m => exact (mmInsert_desc s h l hl).sublist (List.take_sublist ..)

theorem nbPush_mem (max : Option Nat) (s : Score) (h : Hyp) (l : List (Score × Hyp)) :
    ∀ e ∈ nbPush max s h l, e = (s, h) ∨ e ∈ l := by
  intro e he
  unfold nbPush at he
  cases max with
  | none => simpa using (mmInsert_perm s h l).mem_iff.1 he
  | some m => simpa using (mmInsert_perm s h l).mem_iff.1 ((List.take_sublist ..).subset he)

theorem pushAll_desc (max : Option Nat) (r : List (Score × Hyp)) : ∀ l, Desc l →
    Desc (r.foldl (fun st x => nbPush max x.1 x.2 st) l) := by
  induction r with
  | nil => intro l h; exact h
  | cons e r ih => intro l h; exact ih _ (nbPush_desc _ _ _ _ h)

theorem pushAll_mem (max : Option Nat) (r : List (Score × Hyp)) : ∀ l,
    ∀ e ∈ r.foldl (fun st x => nbPush max x.1 x.2 st) l, e ∈ r ∨ e ∈ l := by
  induction r with
  | nil => intro l e he; exact Or.inr he
  | cons x r ih =>
    intro l e he
    rcases ih _ e he with h | h
    · exact Or.inl (List.mem_cons_of_mem _ h)
    · rcases nbPush_mem _ _ _ _ e h with rfl | h
      · exact Or.inl (List.mem_cons_self ..)
      · exact Or.inr h

theorem pushAll_perm (r : List (Score × Hyp)) : ∀ l,
    (r.foldl (fun st x => nbPush none x.1 x.2 st) l).Perm (r ++ l) := by
  induction r with
  | nil => intro l; exact List.Perm.refl _
  | cons x r ih =>
    intro l
    refine (ih _).trans ?_
    refine ((mmInsert_perm x.1 x.2 l).append_left r).trans ?_
    exact List.perm_middle

/-- Without overflow the bounded and the unlimited stacks behave alike. -/
theorem pushAll_bound (m : Nat) (r : List (Score × Hyp)) : ∀ l, (r ++ l).length ≤ m →
    r.foldl (fun st x => nbPush (some m) x.1 x.2 st) l = r.foldl (fun st x => nbPush none x.1 x.2 st) l := by
  induction r with
  | nil => intro l _; rfl
  | cons x r ih =>
    intro l hl
    have hlen : (mmInsert x.1 x.2 l).length = l.length + 1 := by rw [(mmInsert_perm x.1 x.2 l).length_eq]; rfl
    simp only [List.length_append, List.length_cons] at hl
    have : nbPush (some m) x.1 x.2 l = nbPush none x.1 x.2 l := by
      simp only [nbPush]; exact List.take_of_length_le (by rw [hlen]; omega)
    rw [List.foldl_cons, List.foldl_cons, this]
    exact ih _ (by simp only [nbPush, List.length_append, hlen]; omega)

/-- A hypothesis is a path; its arcs determine it. -/
theorem Path.ids_inj {g : WG} {P : Nat → Arc → Prop} (hP : ∀ i a, P i a → g.arcs[i]? = some a) {s t t' : Nat}
    {p p' : List (Nat × Arc)} (hp : Path P s p t) (hp' : Path P s p' t') (h : p.map Prod.fst = p'.map Prod.fst) :
    p = p' ∧ t = t' := by
  induction hp generalizing p' with
  | nil =>
    simp only [List.map_nil] at h
    have : p' = [] := by simpa using h.symm
    subst this
    exact ⟨rfl, hp'.nil_eq.symm⟩
  | @cons i a p t h1 h2 ih =>
    rcases hp'.inv with ⟨rfl, -⟩ | ⟨i', a', q, rfl, h3, h4, h5⟩
    · simp at h
    · simp only [List.map_cons, List.cons.injEq] at h
      obtain ⟨rfl, h⟩ := h
      have : a = a' := by
        have e1 := hP _ _ h1; rw [hP _ _ h4] at e1; exact (Option.some.inj e1).symm
      subst this
      obtain ⟨rfl, rfl⟩ := ih h5 h
      exact ⟨rfl, rfl⟩

/-- The state where a path ends, seen from its arcs. -/
theorem lastState_path {g : WG} {p : List (Nat × Arc)} {t : Nat} (hp : Path (Live g) initialState p t) :
    lastState g (p.map Prod.fst) = some t := by
  unfold lastState
  rcases nil_or_snoc p with rfl | ⟨q, e, rfl⟩
  · simp [hp.nil_eq]
  · obtain ⟨u, h1, h2⟩ := hp.split
    rcases h2.inv with ⟨h, -⟩ | ⟨i, a, p', h, h3, h4, h5⟩
    · cases h
    · cases h
      have := h5.nil_eq
      simp [arc, h4.1, this]

theorem hypIsComplete_path {g : WG} {p : List (Nat × Arc)} {t : Nat} (hp : Path (Live g) initialState p t) :
    hypIsComplete g (p.map Prod.fst) = some (!p.isEmpty && stateIsFinal g t) := by
  unfold hypIsComplete
  rcases nil_or_snoc p with rfl | ⟨q, e, rfl⟩
  · simp
  · obtain ⟨u, h1, h2⟩ := hp.split
    rcases h2.inv with ⟨h, -⟩ | ⟨i, a, p', h, h3, h4, h5⟩
    · cases h
    · cases h
      have := h5.nil_eq
      simp [arc, h4.1, this]

/-- No proper non-empty prefix of the path ends in a final state. -/
def NoFinal (g : WG) (p : List (Nat × Arc)) : Prop :=
  ∀ p1 p2 t, p = p1 ++ p2 → p1 ≠ [] → p2 ≠ [] → Path (Live g) initialState p1 t → t ∉ g.final

/-- A non-empty path of arcs that have not been pruned, from the initial state to a final state, that
goes through no other final state (apart, possibly, from the initial state). -/
def FirstFinal (g : WG) (p : List (Nat × Arc)) : Prop :=
  p ≠ [] ∧ (∃ f, f ∈ g.final ∧ Path (Live g) initialState p f) ∧ NoFinal g p

/-- An element of the stack. -/
structure HOk (g : WG) (heur : List Score) (e : Score × Hyp) : Prop where
  ex : ∃ p t hv, e.2 = p.map Prod.fst ∧ Path (Live g) initialState p t ∧ NoFinal g p ∧ heur[t]? = some hv ∧
    e.1 = g.init + score own p + hv

/-- A complete hypothesis. -/
def COk (g : WG) (e : Score × Hyp) : Prop :=
  ∃ p, e.2 = p.map Prod.fst ∧ FirstFinal g p ∧ e.1 = g.init + score own p

/-- Neither hypothesis extends the other. -/
def Apart (x y : Score × Hyp) : Prop := ¬ x.2 <+: y.2 ∧ ¬ y.2 <+: x.2

theorem Apart.symm {x y : Score × Hyp} (h : Apart x y) : Apart y x := ⟨h.2, h.1⟩

/-- The extensions computed by `expand`. -/
theorem expand_ok {g : WG} (hw : WF g) {heur : List Score} (hl : heur.length = g.states.length) (sc : Score) (h : Hyp) :
    ∀ (ids : List Nat), (∀ i ∈ ids, i < g.arcs.length) →
      ∃ r, expand g heur sc h ids = some r ∧ r.map Prod.snd = ids.map (fun i => h ++ [i]) ∧
        ∀ e ∈ r, ∃ i a hv, i ∈ ids ∧ g.arcs[i]? = some a ∧ heur[a.succ]? = some hv ∧ e = (sc + a.score + hv, h ++ [i]) := by
  intro ids
  induction ids with
  | nil => intro _; exact ⟨[], rfl, rfl, by simp⟩
  | cons i ids ih =>
    intro hi
    obtain ⟨r, h1, h2, h3⟩ := ih fun j hj => hi j (List.mem_cons_of_mem _ hj)
    have hil := hi i (List.mem_cons_self ..)
    have ha : g.arcs[i]? = some g.arcs[i] := List.getElem?_eq_getElem hil
    have hs : g.arcs[i].succ < heur.length := by rw [hl]; exact hw.succ i _ ha
    refine ⟨(sc + g.arcs[i].score + heur[g.arcs[i].succ], h ++ [i]) :: r, ?_, by simp [h2], ?_⟩
    · simp only [expand, arc, ha, List.getElem?_eq_getElem hs, h1]
    · intro e he
      rcases List.mem_cons.1 he with rfl | he
      · exact ⟨i, _, _, List.mem_cons_self .., ha, List.getElem?_eq_getElem hs, rfl⟩
      · obtain ⟨j, a, hv, h4, h5⟩ := h3 e he
        exact ⟨j, a, hv, List.mem_cons_of_mem _ h4, h5⟩

theorem prefix_concat {l h : List Nat} {i : Nat} (h1 : l <+: h ++ [i]) : l = h ++ [i] ∨ l <+: h := by
  obtain ⟨m, hm⟩ := h1
  rcases nil_or_snoc m with rfl | ⟨m', x, rfl⟩
  · left; simpa using hm
  · right
    rw [← List.append_assoc] at hm
    exact ⟨m', List.append_inj_left' hm (by simp)⟩

/-- What one iteration does, for hypotheses that are paths. -/
theorem nbStep_ok {g : WG} (hw : WF g) {heur : List Score} (hl : heur.length = g.states.length) (max : Option Nat)
    {e : Score × Hyp} (he : HOk g heur e) (stack compl : List (Score × Hyp)) :
    (∃ c, COk g c ∧ c.2 = e.2 ∧ (∃ f hv, f ∈ g.final ∧ heur[f]? = some hv ∧ c.1 = e.1 - hv) ∧
      nbStep g heur max e stack compl = some (stack, mmInsert c.1 c.2 compl)) ∨
    (∃ (p : List (Nat × Arc)) (t : Nat) (r : List (Score × Hyp)) (ids : List Nat), e.2 = p.map Prod.fst ∧ Path (Live g) initialState p t ∧ (p ≠ [] → t ∉ g.final) ∧
      ids.Nodup ∧ (∀ i, i ∈ ids ↔ ∃ a, Live g i a ∧ a.pred = t) ∧ r.map Prod.snd = ids.map (fun i => e.2 ++ [i]) ∧
      (∀ x ∈ r, HOk g heur x) ∧
      nbStep g heur max e stack compl = some (r.foldl (fun st x => nbPush max x.1 x.2 st) stack, compl)) := by
  obtain ⟨p, t, hv, h1, h2, h3, h4, h5⟩ := he.ex
  have hls : lastState g e.2 = some t := by rw [h1]; exact lastState_path h2
  have hco : hypIsComplete g e.2 = some (!p.isEmpty && stateIsFinal g t) := by rw [h1]; exact hypIsComplete_path h2
  unfold nbStep
  rw [hls]
  simp only [h4, hco]
  by_cases hc : p ≠ [] ∧ t ∈ g.final
  · left
    have hb : (!p.isEmpty && stateIsFinal g t) = true := by simp [stateIsFinal, hc.1, hc.2]
    rw [hb]
    refine ⟨(e.1 - hv, e.2), ⟨p, h1, ⟨hc.1, ⟨t, hc.2, h2⟩, h3⟩, ?_⟩, rfl, ⟨t, hv, hc.2, h4, rfl⟩, rfl⟩
    simp only; rw [h5]; grind
  · right
    have hb : (!p.isEmpty && stateIsFinal g t) = false := by
      cases hp : p.isEmpty
      · simp only [Bool.not_false, Bool.true_and, stateIsFinal]
        have : p ≠ [] := by simpa using hp
        simpa using fun h => hc ⟨this, h⟩
      · simp
    rw [hb]
    rw [C61_arcIdsToSucc hw t]
    simp only
    obtain ⟨r, hr1, hr2, hr3⟩ := expand_ok hw hl (e.1 - hv) e.2 ((List.range g.arcs.length).filter fun i =>
      (g.arcs[i]?.map Arc.pred) == some t && g.pruned[i]? == some false)
      (fun i hi => List.mem_range.1 (List.mem_filter.1 hi).1)
    have hids : ∀ i, i ∈ ((List.range g.arcs.length).filter fun i =>
        (g.arcs[i]?.map Arc.pred) == some t && g.pruned[i]? == some false) ↔ ∃ a, Live g i a ∧ a.pred = t := by
      intro i
      rw [List.mem_filter, List.mem_range]
      simp only [Bool.and_eq_true, beq_iff_eq, Option.map_eq_some_iff]
      constructor
      · rintro ⟨-, ⟨a, ha, hp⟩, hpr⟩; exact ⟨a, ⟨ha, hpr⟩, hp⟩
      · rintro ⟨a, ⟨ha, hpr⟩, hp⟩; exact ⟨(List.getElem?_eq_some_iff.1 ha).1, ⟨a, ha, hp⟩, hpr⟩
    refine ⟨p, t, r, _, h1, h2, fun hp ht => hc ⟨hp, ht⟩, List.Pairwise.filter _ List.nodup_range, hids, hr2, ?_, ?_⟩
    · intro x hx
      obtain ⟨i, a, hv', hi, ha, hhv, rfl⟩ := hr3 x hx
      obtain ⟨a', hl', hp'⟩ := (hids i).1 hi
      have : a' = a := by have := hl'.1; rw [ha] at this; exact (Option.some.inj this).symm
      subst this
      subst hp'
      refine ⟨p ++ [(i, a')], a'.succ, hv', by simp [h1], h2.snoc hl', ?_, hhv, ?_⟩
      · intro p1 p2 u h6 h7 h8 h9
        rcases nil_or_snoc p2 with rfl | ⟨m, y, rfl⟩
        · exact absurd rfl h8
        · rw [← List.append_assoc] at h6
          have h10 := List.append_inj_left' h6 (by simp)
          rcases nil_or_snoc m with rfl | ⟨m', z, rfl⟩
          · rw [List.append_nil] at h10; subst h10
            have := (h2.ids_inj (fun _ _ h => h.1) h9 rfl).2
            subst this
            exact fun h => hc ⟨h7, h⟩
          · exact h3 p1 (m' ++ [z]) u h10 h7 (by simp) h9
      · simp only [score_snoc, own]; rw [h5]; grind
    · rw [hr1]

end Thot.WordGraph
