import Verif.WordGraph.PrevProps
import Verif.WordGraph.BuildProps

/-! # Word graph composed of useful states (C59) -/

namespace Thot.WordGraph

/-! ## Reachable states -/

theorem flag_arc {g : WG} (hw : WF g) {k : Nat} (hk : k < g.arcs.length) :
    ∃ a fl, g.arcs[k]? = some a ∧ g.pruned[k]? = some fl :=
  ⟨_, _, List.getElem?_eq_getElem hk, List.getElem?_eq_getElem (by rw [hw.pruned]; exact hk)⟩

theorem live_unique {g : WG} {k : Nat} {a b : Arc} (ha : Live g k a) (hb : Live g k b) : b = a := by
  have := hb.1; rw [ha.1] at this; exact (Option.some.inj this).symm

structure ReachInv (g : WG) (k : Nat) (v : List Bool) : Prop where
  len : v.length = g.states.length
  iff : ∀ t : Nat, v[t]? = some true ↔ t < g.states.length ∧ ∃ p, Path (Below (Live g) k) initialState p t

theorem reachLoop_ok {g : WG} (ht : Topo g) (hw : WF g) : ∀ (n k : Nat) (v : List Bool), ReachInv g k v →
    k + n = g.arcs.length → ∃ v', reachLoop g (List.range' k n) v = some v' ∧ ReachInv g g.arcs.length v' := by
  intro n
  induction n with
  | zero => intro k v h hk; simp at hk; subst hk; exact ⟨v, rfl, h⟩
  | succ n ih =>
    intro k v h hk
    obtain ⟨a, fl, ha, hf⟩ := flag_arc hw (show k < g.arcs.length by omega)
    rw [List.range'_succ, reachLoop]
    simp only [arcPruned, arc, hf, ha]
    have hskip : (∀ p t, Path (Below (Live g) (k + 1)) initialState p t → ∃ p', Path (Below (Live g) k) initialState p' t) →
        ReachInv g (k + 1) v := by
      intro hs
      refine ⟨h.len, fun t => ?_⟩
      rw [h.iff]
      constructor
      · rintro ⟨h1, p, hp⟩; exact ⟨h1, p, hp.below_mono (Nat.le_succ _)⟩
      · rintro ⟨h1, p, hp⟩; exact ⟨h1, hs p t hp⟩
    cases fl with
    | true =>
      refine ih (k + 1) v (hskip ?_) (by omega)
      intro p t hp
      rcases path_below_succ ht (fun _ _ => live_arc) hp with h1 | ⟨b, p', hb, -⟩
      · exact ⟨p, h1⟩
      · have := hb.2; rw [hf] at this; cases this
    | false =>
      have hlive : Live g k a := ⟨ha, hf⟩
      have hpr := hw.pred k a ha
      have hsu := hw.succ k a ha
      have hpl : a.pred < v.length := by rw [h.len]; exact hpr
      simp only [List.getElem?_eq_getElem hpl]
      cases hv : v[a.pred] with
      | false =>
        refine ih (k + 1) v (hskip ?_) (by omega)
        intro p t hp
        rcases path_below_succ ht (fun _ _ => live_arc) hp with h1 | ⟨b, p', hb, -, -, hp'⟩
        · exact ⟨p, h1⟩
        · have := live_unique hlive hb; subst this
          have := (h.iff b.pred).2 ⟨hpr, p', hp'⟩
          rw [List.getElem?_eq_getElem hpl, hv] at this; cases this
      | true =>
        have hsl : a.succ < v.length := by rw [h.len]; exact hsu
        simp only [hsl, if_true]
        refine ih (k + 1) _ ?_ (by omega)
        obtain ⟨-, p0, hp0⟩ := (h.iff a.pred).1 (by rw [List.getElem?_eq_getElem hpl, hv])
        refine ⟨by simp [h.len], fun t => ?_⟩
        rw [getElem?_set' _ _ _ _ hsl]
        constructor
        · intro hs
          split at hs
          · rename_i heq; subst heq
            exact ⟨hsu, _, (hp0.below_mono (Nat.le_succ _)).snoc ⟨Nat.lt_succ_self _, hlive⟩⟩
          · obtain ⟨h1, p, hp⟩ := (h.iff t).1 hs
            exact ⟨h1, p, hp.below_mono (Nat.le_succ _)⟩
        · rintro ⟨h1, p, hp⟩
          rcases path_below_succ ht (fun _ _ => live_arc) hp with hp | ⟨b, p', hb, hbt, -⟩
          · split
            · rfl
            · exact (h.iff t).2 ⟨h1, p, hp⟩
          · have := live_unique hlive hb; subst this
            simp [hbt]

theorem reachable_ok {g : WG} (ht : Topo g) (hw : WF g) (hs : initialState < g.states.length) :
    ∃ v, reachableFromInit g = some v ∧ v.length = g.states.length ∧
      ∀ t : Nat, v[t]? = some true ↔ t < g.states.length ∧ ∃ p, Path (Live g) initialState p t := by
  have h0 : ReachInv g 0 ((List.replicate g.states.length false).set initialState true) := by
    refine ⟨by simp, fun t => ?_⟩
    rw [getElem?_set' _ _ _ _ (by simpa using hs), List.getElem?_replicate]
    constructor
    · intro h
      split at h
      · rename_i heq; subst heq; exact ⟨hs, [], .nil _⟩
      · split at h <;> simp at h
    · rintro ⟨-, p, hp⟩
      simp [(path_below_zero hp).2]
  obtain ⟨v, h1, h2⟩ := reachLoop_ok ht hw g.arcs.length 0 _ h0 (by omega)
  refine ⟨v, by rw [reachableFromInit, List.range_eq_range']; exact h1, h2.len, fun t => ?_⟩
  rw [h2.iff]
  simp only [path_below_all (P := Live g) (fun _ _ => live_arc)]

/-! ## Useful states -/

/-- A final state that some arc enters. -/
def Base (g : WG) (s : Nat) : Prop := s ∈ g.final ∧ ∃ i a, Live g i a ∧ a.succ = s

theorem markFinal_ok {g : WG} (hw : WF g) : ∀ (l : List Nat) (v : List Bool), v.length = g.states.length → (∀ s ∈ l, s < g.states.length) →
    ∃ v', markFinal g l v = some v' ∧ v'.length = g.states.length ∧
      ∀ t : Nat, v'[t]? = some true ↔ v[t]? = some true ∨ (t ∈ l ∧ ∃ i a, Live g i a ∧ a.succ = t) := by
  intro l
  induction l with
  | nil => intro v hl _; exact ⟨v, rfl, hl, by simp⟩
  | cons s l ih =>
    intro v hl h
    have hs := h s (List.mem_cons_self ..)
    rw [markFinal, C61_arcIdsToPred hw s]
    simp only
    have hids : ((List.range g.arcs.length).filter fun i =>
        (g.arcs[i]?.map Arc.succ) == some s && g.pruned[i]? == some false) ≠ [] ↔ ∃ i a, Live g i a ∧ a.succ = s := by
      constructor
      · intro hne
        obtain ⟨i, hi⟩ := List.exists_mem_of_ne_nil _ hne
        rw [List.mem_filter] at hi
        simp only [Bool.and_eq_true, beq_iff_eq, Option.map_eq_some_iff] at hi
        obtain ⟨-, ⟨a, ha, has⟩, hp⟩ := hi
        exact ⟨i, a, ⟨ha, hp⟩, has⟩
      · rintro ⟨i, a, ⟨ha, hp⟩, has⟩
        refine List.ne_nil_of_mem (a := i) (List.mem_filter.2 ⟨List.mem_range.2 (List.getElem?_eq_some_iff.1 ha).1, ?_⟩)
        simp [ha, hp, has]
    by_cases hb : ∃ i a, Live g i a ∧ a.succ = s
    · have hne := hids.2 hb
      have : ((List.range g.arcs.length).filter fun i =>
        (g.arcs[i]?.map Arc.succ) == some s && g.pruned[i]? == some false).isEmpty = false := by
        rw [Bool.eq_false_iff, Ne, List.isEmpty_iff]; exact hne
      rw [this]
      have hsl : s < v.length := by rw [hl]; exact hs
      simp only [Bool.false_eq_true, if_false, hsl, if_true]
      obtain ⟨v', h1, h2, h3⟩ := ih (v.set s true) (by simpa using hl) fun x hx => h x (List.mem_cons_of_mem _ hx)
      refine ⟨v', h1, h2, fun t => ?_⟩
      rw [h3, getElem?_set' _ _ _ _ hsl, List.mem_cons]
      by_cases hts : t = s
      · subst hts; simp [hb]
      · simp [hts]
    · have : ((List.range g.arcs.length).filter fun i =>
        (g.arcs[i]?.map Arc.succ) == some s && g.pruned[i]? == some false).isEmpty = true := by
        rw [List.isEmpty_iff]; exact Classical.byContradiction fun hc => hb (hids.1 hc)
      rw [this]
      simp only [if_true]
      obtain ⟨v', h1, h2, h3⟩ := ih v hl fun x hx => h x (List.mem_cons_of_mem _ hx)
      refine ⟨v', h1, h2, fun t => ?_⟩
      rw [h3, List.mem_cons]
      by_cases hts : t = s
      · subst hts; simp [hb]
      · simp [hts]

/-- Live arcs that leave a reachable state. -/
def RLive (g : WG) (reach : List Bool) (i : Nat) (a : Arc) : Prop := Live g i a ∧ reach[a.pred]? = some true

structure UseInv (g : WG) (reach : List Bool) (k : Nat) (v : List Bool) : Prop where
  len : v.length = g.states.length
  iff : ∀ t : Nat, v[t]? = some true ↔ t < g.states.length ∧ ∃ p f, Base g f ∧ Path (From (RLive g reach) k) t p f

theorem usefulLoop_ok {g : WG} (ht : Topo g) (hw : WF g) {reach : List Bool} (hr : reach.length = g.states.length) :
    ∀ (k : Nat) (v : List Bool), UseInv g reach k v → k ≤ g.arcs.length →
      ∃ v', usefulLoop g reach (List.range k).reverse v = some v' ∧ UseInv g reach 0 v' := by
  intro k
  induction k with
  | zero => intro v h _; exact ⟨v, rfl, h⟩
  | succ k ih =>
    intro v h hk
    obtain ⟨a, fl, ha, hf⟩ := flag_arc hw (show k < g.arcs.length by omega)
    rw [List.range_succ, List.reverse_append, List.reverse_cons, List.reverse_nil, List.nil_append,
      List.singleton_append, usefulLoop]
    simp only [arcPruned, arc, hf, ha]
    have hskip : (∀ p t f, Base g f → Path (From (RLive g reach) k) t p f → ∃ p' f', Base g f' ∧ Path (From (RLive g reach) (k + 1)) t p' f') →
        UseInv g reach k v := by
      intro hs
      refine ⟨h.len, fun t => ?_⟩
      rw [h.iff]
      constructor
      · rintro ⟨h1, p, f, hb, hp⟩; exact ⟨h1, p, f, hb, hp.from_mono (Nat.le_succ _)⟩
      · rintro ⟨h1, p, f, hb, hp⟩; exact ⟨h1, hs p t f hb hp⟩
    cases fl with
    | true =>
      refine ih v (hskip ?_) (by omega)
      intro p t f hb hp
      rcases path_from_succ ht (fun _ _ h => h.1.1) hp with h1 | ⟨b, p', hb', -⟩
      · exact ⟨p, f, hb, h1⟩
      · have := hb'.1.2; rw [hf] at this; cases this
    | false =>
      have hlive : Live g k a := ⟨ha, hf⟩
      have hpr := hw.pred k a ha
      have hsu := hw.succ k a ha
      have hpl : a.pred < v.length := by rw [h.len]; exact hpr
      have hsl : a.succ < v.length := by rw [h.len]; exact hsu
      have hrl : a.pred < reach.length := by rw [hr]; exact hpr
      simp only [List.getElem?_eq_getElem hrl, List.getElem?_eq_getElem hsl]
      by_cases hc : reach[a.pred] = true ∧ v[a.succ] = true
      · rw [hc.1, hc.2]
        simp only [Bool.and_self, if_true, hpl]
        obtain ⟨-, p0, f0, hb0, hp0⟩ := (h.iff a.succ).1 (by rw [List.getElem?_eq_getElem hsl, hc.2])
        have hrlive : RLive g reach k a := ⟨hlive, by rw [List.getElem?_eq_getElem hrl, hc.1]⟩
        refine ih _ ?_ (by omega)
        refine ⟨by simp [h.len], fun t => ?_⟩
        rw [getElem?_set' _ _ _ _ hpl]
        constructor
        · intro hs
          split at hs
          · rename_i heq; subst heq
            exact ⟨hpr, _, f0, hb0, .cons ⟨Nat.le_refl _, hrlive⟩ (hp0.from_mono (Nat.le_succ _))⟩
          · obtain ⟨h1, p, f, hb, hp⟩ := (h.iff t).1 hs
            exact ⟨h1, p, f, hb, hp.from_mono (Nat.le_succ _)⟩
        · rintro ⟨h1, p, f, hb, hp⟩
          rcases path_from_succ ht (fun _ _ h => h.1.1) hp with hp | ⟨b, p', hb', hbt, -⟩
          · split
            · rfl
            · exact (h.iff t).2 ⟨h1, p, f, hb, hp⟩
          · have := live_unique hlive hb'.1; subst this
            simp [hbt]
      · have : (reach[a.pred] && v[a.succ]) = false := by
          cases h1 : reach[a.pred] <;> cases h2 : v[a.succ] <;> simp_all
        rw [this]
        simp only [Bool.false_eq_true, if_false]
        refine ih v (hskip ?_) (by omega)
        intro p t f hb hp
        rcases path_from_succ ht (fun _ _ h => h.1.1) hp with h1 | ⟨b, p', hb', hbt, -, hp'⟩
        · exact ⟨p, f, hb, h1⟩
        · exfalso
          have := live_unique hlive hb'.1; subst this
          apply hc
          refine ⟨?_, ?_⟩
          · have := hb'.2; rw [List.getElem?_eq_getElem hrl] at this; exact Option.some.inj this
          · have := (h.iff b.succ).2 ⟨hsu, p', f, hb, hp'⟩
            rw [List.getElem?_eq_getElem hsl] at this; exact Option.some.inj this

/-- Every final state that some arc enters is reachable from the initial state. -/
def FinalsReachable (g : WG) : Prop :=
  ∀ f ∈ g.final, (∃ i a, Live g i a ∧ a.succ = f) → ∃ p, Path (Live g) initialState p f

/-- No arc enters the initial state. -/
def NoArcToInit (g : WG) : Prop := ∀ i a, Live g i a → a.succ ≠ initialState

/-- The state is on a complete path that has some arc. -/
def OnComplete (g : WG) (s : Nat) : Prop :=
  ∃ p q f, f ∈ g.final ∧ Path (Live g) initialState p s ∧ Path (Live g) s q f ∧ p ++ q ≠ []

theorem useful_ok {g : WG} (ht : Topo g) (hw : WF g) (hf : FinalOk g) (hs : initialState < g.states.length) (hfr : FinalsReachable g)
    (hni : NoArcToInit g) :
    ∃ u, usefulStates g = some u ∧ u.length = g.states.length ∧
      (∀ t : Nat, u[t]? = some true → OnComplete g t) ∧
      (∀ p q f t, f ∈ g.final → Path (Live g) initialState p t → Path (Live g) t q f → p ++ q ≠ [] → u[t]? = some true) := by
  obtain ⟨v0, h1, h2, h3⟩ := markFinal_ok hw g.final (List.replicate g.states.length false) (by simp) hf
  obtain ⟨reach, h4, h5, h6⟩ := reachable_ok ht hw hs
  have h0 : UseInv g reach g.arcs.length v0 := by
    refine ⟨h2, fun t => ?_⟩
    rw [h3]
    constructor
    · rintro (h | ⟨h7, h8⟩)
      · rw [List.getElem?_replicate] at h; split at h <;> simp at h
      · exact ⟨hf t h7, [], t, ⟨h7, h8⟩, .nil _⟩
    · rintro ⟨-, p, f, hb, hp⟩
      obtain ⟨rfl, rfl⟩ := path_from_all (fun _ _ h => h.1.1) hp
      exact Or.inr hb
  obtain ⟨u, h7, h8⟩ := usefulLoop_ok ht hw h5 g.arcs.length v0 h0 (Nat.le_refl _)
  refine ⟨u, by rw [usefulStates, h1, h4]; exact h7, h8.len, ?_, ?_⟩
  · intro t hut
    obtain ⟨-, p, f, hb, hp⟩ := (h8.iff t).1 hut
    have hp' := path_from_zero.1 hp
    rcases hp'.inv with ⟨rfl, rfl⟩ | ⟨i, a, q, rfl, rfl, h9, h10⟩
    · obtain ⟨r, hr⟩ := hfr f hb.1 hb.2
      refine ⟨r, [], f, hb.1, hr, .nil _, ?_⟩
      obtain ⟨i, a, hl, ha⟩ := hb.2
      rintro h
      have hr0 : r = [] := by simpa using h
      subst hr0
      exact hni i a hl (ha.trans hr.nil_eq)
    · obtain ⟨-, r, hr⟩ := (h6 _).1 h9.2
      exact ⟨r, _, f, hb.1, hr, hp'.mono fun _ _ h => h.1, by simp⟩
  · intro p q f t hff hp hq hne
    have hlast : ∃ i a, Live g i a ∧ a.succ = f := by
      have hpq := hp.append hq
      rcases hpq' : (p ++ q).eq_nil_or_concat with h | ⟨m, x, h⟩
      · exact absurd h hne
      · rw [h, List.concat_eq_append] at hpq
        obtain ⟨u', h9, h10⟩ := hpq.split
        rcases h10.inv with ⟨h, -⟩ | ⟨i, a, p', h, -, h11, h12⟩
        · cases h
        · cases h
          exact ⟨i, a, h11, h12.nil_eq.symm⟩
    have htl : t < g.states.length := by
      rcases hq.inv with ⟨-, rfl⟩ | ⟨i, a, q', -, rfl, h9, -⟩
      · exact hf _ hff
      · exact hw.pred i a h9.1
    refine (h8.iff t).2 ⟨htl, q, f, ⟨hff, hlast⟩, path_from_zero.2 ?_⟩
    -- every arc of `q` leaves a reachable state
    clear hne hlast
    have key : ∀ (q : List (Nat × Arc)) (t : Nat) (p : List (Nat × Arc)), Path (Live g) initialState p t → Path (Live g) t q f →
        Path (RLive g reach) t q f := by
      intro q
      induction q with
      | nil => intro t p _ hq; rw [hq.nil_eq]; exact .nil _
      | cons e q ih =>
        intro t p hp hq
        rcases hq.inv with ⟨h, -⟩ | ⟨i, a, q', h, rfl, h9, h10⟩
        · cases h
        · cases h
          exact .cons ⟨h9, (h6 _).2 ⟨hw.pred i a h9.1, p, hp⟩⟩ (ih _ _ (hp.snoc h9) h10)
    exact key q t p hp hq

/-! ## Renumbering -/

theorem remap_some {u : List Bool} {s : Nat} (h : u[s]? = some true) :
    remap u s = some ((u.take s).filter id).length := by simp [remap, h]

theorem remap_lt {u : List Bool} {s t : Nat} (hs : u[s]? = some true) (hst : s < t) :
    ((u.take s).filter id).length < ((u.take t).filter id).length := by
  have hsl := (List.getElem?_eq_some_iff.1 hs).1
  have h1 : u.take t = u.take s ++ (u.take t).drop s := by
    conv => lhs; rw [← List.take_append_drop s (u.take t)]
    rw [List.take_take, Nat.min_eq_left (Nat.le_of_lt hst)]
  rw [h1, List.filter_append, List.length_append]
  have h2 : 0 < (((u.take t).drop s).filter id).length := by
    rw [List.length_pos_iff_exists_mem]
    refine ⟨true, List.mem_filter.2 ⟨?_, rfl⟩⟩
    apply List.mem_of_getElem? (i := 0)
    rw [List.getElem?_drop, Nat.add_zero, List.getElem?_take, if_pos hst]
    exact hs
  omega

theorem remap_inj {u : List Bool} {s t : Nat} (hs : u[s]? = some true) (ht : u[t]? = some true)
    (h : ((u.take s).filter id).length = ((u.take t).filter id).length) : s = t := by
  rcases Nat.lt_trichotomy s t with hlt | rfl | hlt
  · have := remap_lt hs hlt; omega
  · rfl
  · have := remap_lt ht hlt; omega

/-- The new number of a state. -/
def num (u : List Bool) (s : Nat) : Nat := ((u.take s).filter id).length

/-- The arcs that are kept, with their components. -/
def kept (u : List Bool) : List Arc → List Bool → List (List Score) → List (Arc × List Score)
  | a :: as, b :: bs, c :: cs =>
    if b = false ∧ u[a.pred]? = some true ∧ u[a.succ]? = some true then (a, c) :: kept u as bs cs else kept u as bs cs
  | _, _, _ => []

def ren (u : List Bool) (a : Arc) : Arc := ⟨num u a.pred, num u a.succ, a.score, a.words⟩

theorem mem_kept {u : List Bool} : ∀ (as : List Arc) (bs : List Bool) (cs : List (List Score)) (x : Arc × List Score),
    x ∈ kept u as bs cs → ∃ i : Nat, as[i]? = some x.1 ∧ bs[i]? = some false ∧ cs[i]? = some x.2 ∧ u[x.1.pred]? = some true ∧
      u[x.1.succ]? = some true := by
  intro as
  induction as with
  | nil => intro bs cs x hx; simp [kept] at hx
  | cons a as ih =>
    intro bs cs x hx
    match bs, cs with
    | [], _ => simp [kept] at hx
    | _ :: _, [] => simp [kept] at hx
    | b :: bs, c :: cs =>
      rw [kept] at hx
      split at hx
      · rename_i hc
        rcases List.mem_cons.1 hx with rfl | hx
        · exact ⟨0, rfl, by simp [hc.1], rfl, hc.2.1, hc.2.2⟩
        · obtain ⟨i, h1⟩ := ih bs cs x hx
          exact ⟨i + 1, by simpa using h1⟩
      · obtain ⟨i, h1⟩ := ih bs cs x hx
        exact ⟨i + 1, by simpa using h1⟩

theorem kept_mem {u : List Bool} : ∀ (as : List Arc) (bs : List Bool) (cs : List (List Score)) (i : Nat) (a : Arc) (c : List Score),
    as[i]? = some a → bs[i]? = some false → cs[i]? = some c → u[a.pred]? = some true → u[a.succ]? = some true →
    (a, c) ∈ kept u as bs cs := by
  intro as
  induction as with
  | nil => intro bs cs i a c h; simp at h
  | cons a0 as ih =>
    intro bs cs i a c h1 h2 h3 h4 h5
    match bs, cs with
    | [], _ => simp at h2
    | _ :: _, [] => simp at h3
    | b :: bs, c0 :: cs =>
      rw [kept]
      cases i with
      | zero =>
        simp only [List.getElem?_cons_zero, Option.some.injEq] at h1 h2 h3
        subst h1 h2 h3
        rw [if_pos ⟨rfl, h4, h5⟩]
        exact List.mem_cons_self ..
      | succ i =>
        simp only [List.getElem?_cons_succ] at h1 h2 h3
        have := ih bs cs i a c h1 h2 h3 h4 h5
        split
        · exact List.mem_cons_of_mem _ this
        · exact this

theorem kept_sublist {u : List Bool} : ∀ (as : List Arc) (bs : List Bool) (cs : List (List Score)),
    ((kept u as bs cs).map Prod.fst).Sublist as := by
  intro as
  induction as with
  | nil => intro bs cs; simp [kept]
  | cons a as ih =>
    intro bs cs
    match bs, cs with
    | [], _ => simp [kept]
    | _ :: _, [] => simp [kept]
    | b :: bs, c :: cs =>
      rw [kept]
      split
      · exact (ih bs cs).cons_cons a
      · exact (ih bs cs).cons a

/-- Every predecessor is the initial state or the successor of an earlier kept arc. -/
def Ready (l : List Arc) (K : List (Arc × List Score)) : Prop :=
  ∀ k1 x k2, K = k1 ++ x :: k2 → x.1.pred = initialState ∨ (∃ b ∈ l, b.succ = x.1.pred) ∨ ∃ y ∈ k1, y.1.succ = x.1.pred

theorem regen_ok {u : List Bool} : ∀ (as : List Arc) (bs : List Bool) (cs : List (List Score)) (g0 : WG) (l : List Arc),
    bs.length = as.length → cs.length = as.length → (∀ a ∈ as, a.pred < u.length ∧ a.succ < u.length) → WF g0 →
    (∀ b ∈ l, num u b.succ < g0.states.length) → Ready l (kept u as bs cs) →
    ∃ g', regenArcs u as bs cs g0 = some g' ∧ WF g' ∧ g'.arcs = g0.arcs ++ (kept u as bs cs).map (fun x => ren u x.1) ∧
      g'.pruned = g0.pruned ++ List.replicate (kept u as bs cs).length false ∧
      g'.comps = g0.comps ++ (kept u as bs cs).map Prod.snd ∧ g'.final = g0.final ∧ g'.init = g0.init ∧ g'.weights = g0.weights := by
  intro as
  induction as with
  | nil =>
    intro bs cs g0 l hb hc _ hw _ _
    have : bs = [] := by simpa using hb
    subst this
    exact ⟨g0, by simp [regenArcs], hw, by simp [kept], by simp [kept], by simp [kept], rfl, rfl, rfl⟩
  | cons a as ih =>
    intro bs cs g0 l hb hc hu hw hl hr
    match bs, cs with
    | [], _ => simp at hb
    | _ :: _, [] => simp at hc
    | b :: bs, c :: cs =>
      simp only [List.length_cons, Nat.add_right_cancel_iff] at hb hc
      have hu' : ∀ x ∈ as, x.pred < u.length ∧ x.succ < u.length := fun x hx => hu x (List.mem_cons_of_mem _ hx)
      obtain ⟨hup, hus⟩ := hu a (List.mem_cons_self ..)
      rw [regenArcs]
      cases b with
      | true =>
        have hk : kept u (a :: as) (true :: bs) (c :: cs) = kept u as bs cs := by rw [kept]; simp
        rw [hk] at hr ⊢
        exact ih bs cs g0 l hb hc hu' hw hl hr
      | false =>
        simp only [Bool.false_eq_true, if_false]
        by_cases hk : u[a.pred]? = some true ∧ u[a.succ]? = some true
        · have hke : kept u (a :: as) (false :: bs) (c :: cs) = (a, c) :: kept u as bs cs := by
            rw [kept, if_pos ⟨rfl, hk⟩]
          rw [hke] at hr ⊢
          simp only [hk.1, hk.2, remap_some hk.1, remap_some hk.2]
          have hp : num u a.pred < Nat.max g0.states.length (num u a.succ + 1) := by
            rcases hr [] (a, c) _ rfl with h | ⟨x, hx, h⟩ | ⟨y, hy, -⟩
            · simp only at h
              have : num u a.pred = 0 := by rw [h]; simp [num, initialState]
              rw [this]
              exact Nat.lt_of_lt_of_le (Nat.succ_pos _) (Nat.le_max_right _ _)
            · simp only at h
              rw [← h]; exact Nat.lt_of_lt_of_le (hl x hx) (Nat.le_max_left _ _)
            · simp at hy
          obtain ⟨g1, h1, h2, h3, h4, h5, h6, h7, h8, h9⟩ := C61_addArcWithScrComps hw (num u a.pred) (num u a.succ) a.words a.score c hp
          have h1' : addArcWithScrComps g0 ((List.take a.pred u).filter id).length ((List.take a.succ u).filter id).length
            a.words a.score c = some g1 := h1
          simp only [h1']
          obtain ⟨g', k1, k2, k3, k4, k5, k6, k7, k8⟩ := ih bs cs g1 (a :: l) hb hc hu' h2 (by
            intro x hx
            rw [h6]
            rcases List.mem_cons.1 hx with rfl | hx
            · exact Nat.lt_of_lt_of_le (Nat.lt_succ_self _) (Nat.le_max_right _ _)
            · exact Nat.lt_of_lt_of_le (hl x hx) (Nat.le_max_left _ _)) (by
            intro q1 x q2 hq
            rcases hr ((a, c) :: q1) x q2 (by rw [hq]; rfl) with h | ⟨y, hy, h⟩ | ⟨y, hy, h⟩
            · exact Or.inl h
            · exact Or.inr (Or.inl ⟨y, List.mem_cons_of_mem _ hy, h⟩)
            · rcases List.mem_cons.1 hy with rfl | hy
              · exact Or.inr (Or.inl ⟨a, List.mem_cons_self .., h⟩)
              · exact Or.inr (Or.inr ⟨y, hy, h⟩))
          refine ⟨g', k1, k2, ?_, ?_, ?_, by rw [k6, h7], by rw [k7, h8], by rw [k8, h9]⟩
          · rw [k3, h3]; simp [ren]
          · rw [k4, h4]; simp [List.replicate_succ]
          · rw [k5, h5]; simp
        · have hke : kept u (a :: as) (false :: bs) (c :: cs) = kept u as bs cs := by
            rw [kept, if_neg (by simpa using hk)]
          rw [hke] at hr ⊢
          obtain ⟨g', k1, k2⟩ := ih bs cs g0 l hb hc hu' hw hl hr
          refine ⟨g', ?_, k2⟩
          rw [List.getElem?_eq_getElem hup, List.getElem?_eq_getElem hus] at hk ⊢
          cases h1 : u[a.pred] <;> cases h2 : u[a.succ]
          · exact k1
          · exact k1
          · exact k1
          · exact absurd ⟨by rw [h1], by rw [h2]⟩ hk

theorem mem_setInsert (x y : Nat) (l : List Nat) : y ∈ setInsert x l ↔ y = x ∨ y ∈ l := by
  induction l with
  | nil => simp [setInsert]
  | cons z l ih =>
    rw [setInsert]
    split
    · simp
    · split
      · rename_i h; subst h; simp
      · simp only [List.mem_cons, ih]
        constructor
        · rintro (h | h | h)
          · exact Or.inr (Or.inl h)
          · exact Or.inl h
          · exact Or.inr (Or.inr h)
        · rintro (h | h | h)
          · exact Or.inr (Or.inl h)
          · exact Or.inl h
          · exact Or.inr (Or.inr h)

theorem mem_foldl_final (y : Nat) : ∀ (l : List Nat) (g : WG), y ∈ (l.foldl addFinalState g).final ↔ y ∈ l ∨ y ∈ g.final := by
  intro l
  induction l with
  | nil => intro g; simp
  | cons x l ih =>
    intro g
    rw [List.foldl_cons, ih]
    simp only [addFinalState, mem_setInsert, List.mem_cons]
    constructor
    · rintro (h | h | h)
      · exact Or.inl (Or.inr h)
      · exact Or.inl (Or.inl h)
      · exact Or.inr h
    · rintro ((h | h) | h)
      · exact Or.inr (Or.inl h)
      · exact Or.inl h
      · exact Or.inr (Or.inr h)

/-! ## The property -/

/-- What a path says: the scores, words and score components of its arcs. -/
def labels (g : WG) (p : List (Nat × Arc)) : List (Score × List Str × Option (List Score)) :=
  p.map fun e => (e.2.score, e.2.words, g.comps[e.1]?)

theorem topo_iff (g : WG) : Topo g ↔ g.arcs.Pairwise (fun a b => b.succ ≠ a.pred) ∧ ∀ a ∈ g.arcs, a.succ ≠ a.pred := by
  constructor
  · intro h
    refine ⟨?_, ?_⟩
    · rw [List.pairwise_iff_getElem]
      intro i j hi hj hij
      exact h i j _ _ (List.getElem?_eq_getElem hi) (List.getElem?_eq_getElem hj) (Nat.le_of_lt hij)
    · intro a ha
      obtain ⟨i, hi⟩ := List.getElem?_of_mem ha
      exact h i i a a hi hi (Nat.le_refl _)
  · rintro ⟨h1, h2⟩ i j a b ha hb hij
    obtain ⟨hi, rfl⟩ := List.getElem?_eq_some_iff.1 ha
    obtain ⟨hj, rfl⟩ := List.getElem?_eq_some_iff.1 hb
    rcases Nat.lt_or_eq_of_le hij with hlt | rfl
    · exact List.pairwise_iff_getElem.1 h1 i j hi hj hlt
    · exact h2 _ (List.getElem_mem hi)

/-- **C59 (useful states).** Take a topologically ordered graph where no arc enters the initial state and
every final state with an incoming arc is reachable.  After `obtainWgComposedOfUsefulStates` the graph is
consistent and topologically ordered, every arc of it belongs to a complete path, and it has the same
complete paths as before, read as sequences of scores, words and score components. -/
theorem C59_useful_partial {g : WG} (ht : Topo g) (hw : WF g) (hf : FinalOk g) (hfr : FinalsReachable g) (hni : NoArcToInit g)
    (hne : g.arcs ≠ []) :
    ∃ g', obtainUseful g = some g' ∧ WF g' ∧ Topo g' ∧ FinalOk g' ∧ g'.init = g.init ∧ g'.weights = g.weights ∧
      (∀ (k : Nat) (a : Arc), g'.arcs[k]? = some a → ∃ p, Complete g' (Live g') p ∧ (k, a) ∈ p) ∧
      (∀ p, p ≠ [] → Complete g (Live g) p → ∃ p', p' ≠ [] ∧ Complete g' (Live g') p' ∧ labels g' p' = labels g p) ∧
      (∀ p', p' ≠ [] → Complete g' (Live g') p' → ∃ p, p ≠ [] ∧ Complete g (Live g) p ∧ labels g' p' = labels g p) := by
  have hs0 : initialState < g.states.length := by
    cases harcs : g.arcs with
    | nil => exact absurd harcs hne
    | cons a l => have := hw.pred 0 a (by rw [harcs]; rfl); exact Nat.lt_of_le_of_lt (Nat.zero_le _) this
  obtain ⟨u, hu1, hu2, hu3, hu4⟩ := useful_ok ht hw hf hs0 hfr hni
  -- every useful state other than the initial one is entered by a kept arc
  have harcok : ∀ i a, Live g i a → u[a.pred]? = some true → u[a.succ]? = some true →
      ∃ c, g.comps[i]? = some c ∧ (a, c) ∈ kept u g.arcs g.pruned g.comps := by
    intro i a hl h1 h2
    have hi : i < g.comps.length := by rw [hw.comps]; exact (List.getElem?_eq_some_iff.1 hl.1).1
    exact ⟨_, List.getElem?_eq_getElem hi, kept_mem _ _ _ i a _ hl.1 hl.2 (List.getElem?_eq_getElem hi) h1 h2⟩
  have hready : Ready [] (kept u g.arcs g.pruned g.comps) := by
    intro k1 x k2 hk
    obtain ⟨i, h1, h2, h3, h4, h5⟩ := mem_kept _ _ _ x (by rw [hk]; simp)
    obtain ⟨p, q, f, hff, hp, hq, -⟩ := hu3 _ h4
    rcases hrev : p.eq_nil_or_concat with h | ⟨m, e, h⟩
    · subst h; exact Or.inl hp.nil_eq
    · right; right
      rw [h, List.concat_eq_append] at hp
      obtain ⟨v, hp1, hp2⟩ := hp.split
      rcases hp2.inv with ⟨h, -⟩ | ⟨j, b, p', h, rfl, h7, h8⟩
      · cases h
      · cases h
        have hbs := h8.nil_eq
        have hbp : u[b.pred]? = some true :=
          hu4 m ((j, b) :: q) f b.pred hff hp1 (.cons h7 (by rw [← hbs]; exact hq)) (by simp)
        obtain ⟨c, -, hmem⟩ := harcok j b h7 hbp (by rw [← hbs]; exact h4)
        rw [hk] at hmem
        refine ⟨(b, c), ?_, by simp [hbs]⟩
        rcases List.mem_append.1 hmem with hm | hm
        · exact hm
        · exfalso
          -- a kept arc after `x` cannot enter the state that `x` leaves
          have hsub := kept_sublist (u := u) g.arcs g.pruned g.comps
          rw [hk, List.map_append, List.map_cons] at hsub
          obtain ⟨ht1, ht2⟩ := (topo_iff g).1 ht
          have hpw := ht1.sublist hsub
          rw [List.pairwise_append] at hpw
          rcases List.mem_cons.1 hm with rfl | hm
          · exact ht2 b (List.mem_of_getElem? h7.1) hbs.symm
          · exact (List.pairwise_cons.1 hpw.2.1).1 b (List.mem_map.2 ⟨(b, c), hm, rfl⟩) hbs.symm
  have hwf0 : WF ((g.final.filterMap (remap u)).foldl addFinalState
      { g with arcs := [], pruned := [], states := [], comps := [], final := [] }) := by
    rw [foldl_final]
    exact ⟨rfl, rfl, by simp, by simp, by simp, by simp⟩
  obtain ⟨g', k1, k2, k3, k4, k5, k6, k7, k8⟩ := regen_ok (u := u) g.arcs g.pruned g.comps _ [] hw.pruned hw.comps (by
    intro a ha
    obtain ⟨i, hi⟩ := List.getElem?_of_mem ha
    rw [hu2]; exact ⟨hw.pred i a hi, hw.succ i a hi⟩) hwf0 (by simp) hready
  rw [foldl_final] at k3 k4 k5 k7 k8
  simp only [List.nil_append] at k3 k4 k5 k7 k8
  have hfin : ∀ y, y ∈ g'.final ↔ ∃ f ∈ g.final, u[f]? = some true ∧ num u f = y := by
    intro y
    rw [k6, mem_foldl_final]
    simp only [List.mem_filterMap, List.not_mem_nil, or_false]
    constructor
    · rintro ⟨f, hff, hr⟩
      by_cases huf : u[f]? = some true
      · rw [remap_some huf] at hr
        exact ⟨f, hff, huf, Option.some.inj hr⟩
      · simp [remap, huf] at hr
    · rintro ⟨f, hff, huf, rfl⟩
      exact ⟨f, hff, remap_some huf⟩
  have hget : ∀ (k : Nat) (x : Arc × List Score), (kept u g.arcs g.pruned g.comps)[k]? = some x →
      Live g' k (ren u x.1) ∧ g'.comps[k]? = some x.2 := by
    intro k x hx
    refine ⟨⟨by rw [k3]; simp [hx], ?_⟩, by rw [k5]; simp [hx]⟩
    rw [k4, List.getElem?_replicate, if_pos (List.getElem?_eq_some_iff.1 hx).1]
  have hget' : ∀ (k : Nat) (a : Arc), g'.arcs[k]? = some a → ∃ x, (kept u g.arcs g.pruned g.comps)[k]? = some x ∧ a = ren u x.1 := by
    intro k a ha
    rw [k3, List.getElem?_map, Option.map_eq_some_iff] at ha
    obtain ⟨x, hx, rfl⟩ := ha
    exact ⟨x, hx, rfl⟩
  -- a live arc between useful states is in the new graph
  have hfw1 : ∀ i a, Live g i a → u[a.pred]? = some true → u[a.succ]? = some true →
      ∃ k, Live g' k (ren u a) ∧ g'.comps[k]? = g.comps[i]? := by
    intro i a hl h1 h2
    obtain ⟨c, hc, hm⟩ := harcok i a hl h1 h2
    obtain ⟨k, hk⟩ := List.getElem?_of_mem hm
    exact ⟨k, (hget k _ hk).1, by rw [(hget k _ hk).2, hc]⟩
  have hfw : ∀ (p : List (Nat × Arc)) (s t : Nat), Path (Live g) s p t →
      (∀ e ∈ p, u[e.2.pred]? = some true ∧ u[e.2.succ]? = some true) →
      ∃ p', Path (Live g') (num u s) p' (num u t) ∧ labels g' p' = labels g p := by
    intro p
    induction p with
    | nil => intro s t hp _; rw [hp.nil_eq]; exact ⟨[], .nil _, rfl⟩
    | cons e p ih =>
      intro s t hp hu
      rcases hp.inv with ⟨h, -⟩ | ⟨i, a, q, h, rfl, h1, h2⟩
      · cases h
      · cases h
        obtain ⟨h3, h4⟩ := hu (i, a) (List.mem_cons_self ..)
        obtain ⟨k, h5, h6⟩ := hfw1 i a h1 h3 h4
        obtain ⟨p', h7, h8⟩ := ih a.succ t h2 fun e he => hu e (List.mem_cons_of_mem _ he)
        refine ⟨(k, ren u a) :: p', Path.cons (a := ren u a) h5 h7, ?_⟩
        simp only [labels, List.map_cons] at h8 ⊢
        rw [h6, h8]
        rfl
  -- all states of a complete path are useful
  have hall : ∀ p f, f ∈ g.final → Path (Live g) initialState p f → p ≠ [] →
      ∀ e ∈ p, u[e.2.pred]? = some true ∧ u[e.2.succ]? = some true := by
    intro p f hff hp hpne e he
    obtain ⟨q1, q2, rfl⟩ := List.append_of_mem he
    obtain ⟨t, hp1, hp2⟩ := hp.split
    rcases hp2.inv with ⟨h, -⟩ | ⟨i, a, q, h, rfl, h1, h2⟩
    · cases h
    · cases h
      refine ⟨hu4 q1 ((i, a) :: q2) f a.pred hff hp1 hp2 hpne, ?_⟩
      exact hu4 (q1 ++ [(i, a)]) q2 f a.succ hff (hp1.snoc h1) h2 (by simp)
  have hnum0 : num u initialState = initialState := by simp [num, initialState]
  have hend : ∀ p f, f ∈ g.final → Path (Live g) initialState p f → p ≠ [] → u[f]? = some true :=
    fun p f hff hp hpne => hu4 p [] f f hff hp (.nil _) (by simpa using hpne)
  -- a kept arc is on a complete path
  have hon : ∀ i a, Live g i a → u[a.pred]? = some true → u[a.succ]? = some true →
      ∃ p q f, f ∈ g.final ∧ Path (Live g) initialState p a.pred ∧ Path (Live g) a.succ q f := by
    intro i a hl h1 h2
    obtain ⟨p, -, -, -, hp, -, -⟩ := hu3 _ h1
    obtain ⟨-, q, f, hff, -, hq, -⟩ := hu3 _ h2
    exact ⟨p, q, f, hff, hp, hq⟩
  have hbw1 : ∀ (k : Nat) (a' : Arc), g'.arcs[k]? = some a' → ∃ i a, Live g i a ∧ a' = ren u a ∧ u[a.pred]? = some true ∧ u[a.succ]? = some true ∧
      g'.comps[k]? = g.comps[i]? := by
    intro k a' ha'
    obtain ⟨x, hx, rfl⟩ := hget' k a' ha'
    obtain ⟨i, h1, h2, h3, h4, h5⟩ := mem_kept _ _ _ x (List.mem_of_getElem? hx)
    exact ⟨i, x.1, ⟨h1, h2⟩, rfl, h4, h5, by rw [(hget k x hx).2, h3]⟩
  have hbw : ∀ (p' : List (Nat × Arc)) (s' t' s : Nat), Path (Live g') s' p' t' → u[s]? = some true → num u s = s' →
      ∃ p t, u[t]? = some true ∧ num u t = t' ∧ Path (Live g) s p t ∧ labels g' p' = labels g p := by
    intro p'
    induction p' with
    | nil => intro s' t' s hp hs hn; exact ⟨[], s, hs, by rw [hp.nil_eq]; exact hn, .nil _, rfl⟩
    | cons e p' ih =>
      intro s' t' s hp hs hn
      rcases hp.inv with ⟨h, -⟩ | ⟨k, a', q, h, rfl, h1, h2⟩
      · cases h
      · cases h
        obtain ⟨i, a, h3, rfl, h4, h5, h6⟩ := hbw1 k a' h1.1
        have hps : a.pred = s := remap_inj h4 hs hn.symm
        subst hps
        obtain ⟨p, t, h7, h8, h9, h10⟩ := ih _ t' a.succ h2 h5 rfl
        refine ⟨(i, a) :: p, t, h7, h8, .cons h3 h9, ?_⟩
        simp only [labels, List.map_cons] at h10 ⊢
        rw [h6, h10]
        rfl
  refine ⟨g', ?_, k2, ?_, ?_, k7, k8, ?_, ?_, ?_⟩
  · unfold obtainUseful isEmpty
    have : g.arcs.isEmpty = false := by simpa using hne
    rw [this, hu1]
    simp only [Bool.false_eq_true, if_false]
    exact k1
  · rw [topo_iff, k3]
    obtain ⟨ht1, ht2⟩ := (topo_iff g).1 ht
    have hsub := kept_sublist (u := u) g.arcs g.pruned g.comps
    refine ⟨?_, ?_⟩
    · have hpw := ht1.sublist hsub
      rw [List.pairwise_map] at hpw ⊢
      refine List.Pairwise.imp_of_mem ?_ hpw
      intro x y hx hy hxy hc
      obtain ⟨-, -, -, -, h4, h5⟩ := mem_kept _ _ _ x hx
      obtain ⟨-, -, -, -, h6, h7⟩ := mem_kept _ _ _ y hy
      exact hxy (remap_inj h7 h4 hc)
    · intro a ha
      obtain ⟨x, hx, rfl⟩ := List.mem_map.1 ha
      obtain ⟨i, h1, -, -, h4, h5⟩ := mem_kept _ _ _ x hx
      intro hc
      exact ht2 x.1 (List.mem_of_getElem? h1) (remap_inj h5 h4 hc)
  · intro y hy
    obtain ⟨f, hff, huf, rfl⟩ := (hfin y).1 hy
    obtain ⟨p, q, f', hff', hp, hq, hpq⟩ := hu3 f huf
    rcases hrev : p.eq_nil_or_concat with h | ⟨m, e, h⟩
    · subst h
      have hf0 := hp.nil_eq
      subst hf0
      rw [hnum0]
      -- the initial state is useful, but no arc enters it: some arc leaves it
      have hstates : ∀ i a, Live g i a → u[a.pred]? = some true → u[a.succ]? = some true → initialState < g'.states.length := by
        intro i a hl h1 h2
        obtain ⟨k, h3, -⟩ := hfw1 i a hl h1 h2
        exact Nat.lt_of_le_of_lt (Nat.zero_le _) (k2.succ k _ h3.1)
      rcases hq.inv with ⟨rfl, -⟩ | ⟨i, a, q', rfl, h0, h1, h2⟩
      · exact absurd rfl hpq
      · have := hall _ f' hff' hq (by simp) (i, a) (List.mem_cons_self ..)
        exact hstates i a h1 this.1 this.2
    · rw [h, List.concat_eq_append] at hp
      obtain ⟨v, hp1, hp2⟩ := hp.split
      rcases hp2.inv with ⟨h, -⟩ | ⟨j, b, p', h, rfl, h7, h8⟩
      · cases h
      · cases h
        have hbs := h8.nil_eq
        subst hbs
        have := hall _ f' hff' (hp.append hq) (by simp) (j, b) (by simp)
        obtain ⟨k, h3, -⟩ := hfw1 j b h7 this.1 this.2
        exact k2.succ k _ h3.1
  · intro k a' ha'
    obtain ⟨i, a, h3, rfl, h4, h5, h6⟩ := hbw1 k a' ha'
    obtain ⟨p, q, f, hff, hp, hq⟩ := hon i a h3 h4 h5
    have hfull : Path (Live g) initialState (p ++ (i, a) :: q) f := hp.append (.cons h3 hq)
    have hflags := hall _ f hff hfull (by simp)
    obtain ⟨p', hp', -⟩ := hfw p _ _ hp fun e he => hflags e (by simp [he])
    obtain ⟨q', hq', -⟩ := hfw q _ _ hq fun e he => hflags e (by simp [he])
    have hlk : Live g' k (ren u a) := by
      refine ⟨ha', ?_⟩
      rw [k4, List.getElem?_replicate, if_pos]
      have := (List.getElem?_eq_some_iff.1 ha').1
      rw [k3] at this
      simpa using this
    refine ⟨p' ++ (k, ren u a) :: q', ⟨num u f, (hfin _).2 ⟨f, hff, hend _ f hff hfull (by simp), rfl⟩, ?_⟩, by simp⟩
    rw [hnum0] at hp'
    exact hp'.append (Path.cons (a := ren u a) hlk hq')
  · rintro p hpne ⟨f, hff, hp⟩
    obtain ⟨p', h1, h2⟩ := hfw p _ _ hp (hall p f hff hp hpne)
    rw [hnum0] at h1
    refine ⟨p', ?_, ⟨num u f, (hfin _).2 ⟨f, hff, hend p f hff hp hpne, rfl⟩, h1⟩, h2⟩
    rintro rfl
    have := congrArg List.length h2
    simp only [labels, List.map_nil, List.length_nil, List.length_map] at this
    exact hpne (List.eq_nil_of_length_eq_zero this.symm)
  · rintro p' hpne ⟨f', hff', hp'⟩
    obtain ⟨f, hff, huf, rfl⟩ := (hfin f').1 hff'
    -- the initial state is useful
    have hu0 : u[initialState]? = some true := by
      rcases hp'.inv with ⟨h, -⟩ | ⟨k, a', q, rfl, h0, h1, h2⟩
      · exact absurd h hpne
      · obtain ⟨i, a, h3, rfl, h4, h5, h6⟩ := hbw1 k a' h1.1
        obtain ⟨p, q, f, hff, hp, hq⟩ := hon i a h3 h4 h5
        have hfull : Path (Live g) initialState (p ++ (i, a) :: q) f := hp.append (.cons h3 hq)
        exact hu4 [] _ f initialState hff (.nil _) hfull (by simp)
    obtain ⟨p, t, h1, h2, h3, h4⟩ := hbw p' _ _ initialState hp' hu0 hnum0
    have htf : t = f := remap_inj h1 huf h2
    subst htf
    refine ⟨p, ?_, ⟨t, hff, h3⟩, h4⟩
    rintro rfl
    have := congrArg List.length h4
    simp only [labels, List.map_nil, List.length_nil, List.length_map] at this
    exact hpne (List.eq_nil_of_length_eq_zero this)

/-- The property without the restriction on final states: after the call all final states exist. -/
def C59_full : Prop :=
  ∀ g : WG, Topo g → WF g → FinalOk g → NoArcToInit g → g.arcs ≠ [] → ∃ g', obtainUseful g = some g' ∧ FinalOk g'

/-- Two components: `0→1`, and `2→3`, whose final state 3 is not reachable. -/
def exUnreach : WG :=
  { arcs := [⟨0, 1, -1, [['a']]⟩, ⟨2, 3, -3, [['b']]⟩], pruned := [false, false],
    states := [⟨[], [0]⟩, ⟨[0], []⟩, ⟨[], [1]⟩, ⟨[1], []⟩], final := [1, 3], init := 0, weights := [], comps := [[], []] }

/-- The full claim is false: a final state that is entered by an arc from an unreachable state is counted
as useful, but all the arcs that mention it are dropped.  The new graph has a final state that does not
exist. -/
theorem C59_counterexample : ¬ C59_full := by
  intro h
  obtain ⟨g', h1, h2⟩ := h exUnreach (topo_of (by decide +kernel))
    (wf_of (by decide) (by decide) (by decide) (by decide) (by decide +kernel) (by decide +kernel))
    (by unfold FinalOk; decide) (by
      intro i a hl
      have := List.mem_of_getElem? hl.1
      simp only [exUnreach, List.mem_cons, List.not_mem_nil, or_false] at this
      rcases this with rfl | rfl <;> decide) (by decide)
  have : obtainUseful exUnreach = some
      { arcs := [⟨0, 1, -1, [['a']]⟩], pruned := [false], states := [⟨[], [0]⟩, ⟨[0], []⟩], final := [1, 2], init := 0,
        weights := [], comps := [[]] } := by decide +kernel
  rw [this] at h1
  cases h1
  exact absurd (h2 2 (by simp)) (by decide)

/-! ## Non-vacuity: the diamond plus a dead end and an unreachable state -/

def exDead : WG :=
  { arcs := [⟨0, 1, -1, [['a']]⟩, ⟨0, 2, -3, [['b']]⟩, ⟨4, 1, -1, [['d']]⟩, ⟨1, 3, -2, [['c']]⟩],
    pruned := [false, false, false, false],
    states := [⟨[], [0, 1]⟩, ⟨[0, 2], [3]⟩, ⟨[1], []⟩, ⟨[3], []⟩, ⟨[], [2]⟩], final := [3], init := -1, weights := [],
    comps := [[1], [2], [4], [3]] }

example : Topo exDead ∧ WF exDead ∧ FinalOk exDead ∧ FinalsReachable exDead ∧ NoArcToInit exDead ∧ exDead.arcs ≠ [] := by
  refine ⟨topo_of (by decide +kernel),
    wf_of (by decide) (by decide) (by decide) (by decide) (by decide +kernel) (by decide +kernel), by unfold FinalOk; decide, ?_, ?_,
    by decide⟩
  · intro f hf _
    have : f = 3 := by simpa [exDead] using hf
    subst this
    exact ⟨[(0, ⟨0, 1, -1, [['a']]⟩), (3, ⟨1, 3, -2, [['c']]⟩)],
      .cons (a := ⟨0, 1, -1, [['a']]⟩) ⟨rfl, rfl⟩ (.cons (a := ⟨1, 3, -2, [['c']]⟩) ⟨rfl, rfl⟩ (.nil _))⟩
  · intro i a hl
    have := List.mem_of_getElem? hl.1
    simp only [exDead, List.mem_cons, List.not_mem_nil, or_false] at this
    rcases this with rfl | rfl | rfl | rfl <;> decide

example : obtainUseful exDead = some
    { arcs := [⟨0, 1, -1, [['a']]⟩, ⟨1, 2, -2, [['c']]⟩], pruned := [false, false],
      states := [⟨[], [0]⟩, ⟨[0], [1]⟩, ⟨[1], []⟩], final := [2], init := -1, weights := [], comps := [[1], [3]] } := by
  decide +kernel

end Thot.WordGraph
