import Verif.WordGraph.Prev

/-! The reverse loops (`calcRestScores`, `obtainNbSearchHeurInfo`) compute best scores of paths to the
final states. -/

namespace Thot.WordGraph

/-- Invariant of the reverse loops after the arcs from `k` on; `b` is the score of the final states. -/
structure RInv (g : WG) (b : Score) (k : Nat) (v : List Score) : Prop where
  len : v.length = g.states.length
  lo : ∀ (t : Nat) p f x, f ∈ g.final → Path (From (Live g) k) t p f → v[t]? = some x → b + score own p ≤ x
  hi : ∀ (t : Nat) x, v[t]? = some x →
    (∃ p f, f ∈ g.final ∧ Path (From (Live g) k) t p f ∧ x = b + score own p) ∨
    (∃ q u, Path (From (Live g) k) t q u ∧ x = small + score own q)

theorem Path.from_mono {P : Nat → Arc → Prop} {k m : Nat} (h : m ≤ k) {s t : Nat} {p : List (Nat × Arc)}
    (hp : Path (From P k) s p t) : Path (From P m) s p t :=
  hp.mono fun _ _ h1 => ⟨Nat.le_trans h h1.1, h1.2⟩

theorem RInv.skip {g : WG} (ht : Topo g) {b : Score} {k : Nat} {v : List Score} (h : RInv g b (k + 1) v)
    (hk : ∀ a, ¬ Live g k a) : RInv g b k v := by
  refine ⟨h.len, ?_, ?_⟩
  · intro t p f x hf hp hx
    rcases path_from_succ ht (fun _ _ => live_arc) hp with hp | ⟨a, _, ha, _⟩
    · exact h.lo t p f x hf hp hx
    · exact absurd ha (hk a)
  · intro t x hx
    rcases h.hi t x hx with ⟨p, f, h1, h2, h3⟩ | ⟨q, u, h1, h2⟩
    · exact Or.inl ⟨p, f, h1, h2.from_mono (Nat.le_succ _), h3⟩
    · exact Or.inr ⟨q, u, h1.from_mono (Nat.le_succ _), h2⟩

theorem RInv.upd {g : WG} (ht : Topo g) {b : Score} {k : Nat} {v : List Score} (h : RInv g b (k + 1) v)
    {a : Arc} (ha : Live g k a) (hpr : a.pred < g.states.length) {sv pv nv : Score} (hsv : v[a.succ]? = some sv)
    (hpv : v[a.pred]? = some pv)
    (h1 : a.score + sv ≤ nv) (h2 : pv ≤ nv) (h3 : nv = pv ∨ nv = a.score + sv ∨ nv = small) :
    RInv g b k (v.set a.pred nv) := by
  have hlt : a.pred < v.length := by rw [h.len]; exact hpr
  have hu : ∀ {a'}, Live g k a' → a' = a := fun h' => by
    have := h'.1; rw [ha.1] at this; exact (Option.some.inj this).symm
  have hget : ∀ t : Nat, (v.set a.pred nv)[t]? = if t = a.pred then some nv else v[t]? :=
    fun t => getElem?_set' _ _ _ _ hlt
  refine ⟨by simp [h.len], ?_, ?_⟩
  · intro t p f x hf hp hx
    rw [hget] at hx
    rcases path_from_succ ht (fun _ _ => live_arc) hp with hp | ⟨a', p', ha', hat, rfl, hp'⟩
    · split at hx
      · rename_i htp; subst htp; cases hx
        exact Rat.le_trans (h.lo _ _ _ _ hf hp hpv) h2
      · exact h.lo _ _ _ _ hf hp hx
    · have := hu ha'; subst this
      rw [if_pos hat.symm] at hx; cases hx
      have := h.lo _ _ _ _ hf hp' hsv
      simp only [score, own]
      grind
  · intro t x hx
    rw [hget] at hx
    have hold : v[t]? = some x → (∃ p f, f ∈ g.final ∧ Path (From (Live g) k) t p f ∧ x = b + score own p) ∨
        (∃ q u, Path (From (Live g) k) t q u ∧ x = small + score own q) := by
      intro hx
      rcases h.hi t x hx with ⟨p, f, h1, h2, h3⟩ | ⟨q, u, h1, h2⟩
      · exact Or.inl ⟨p, f, h1, h2.from_mono (Nat.le_succ _), h3⟩
      · exact Or.inr ⟨q, u, h1.from_mono (Nat.le_succ _), h2⟩
    split at hx
    · rename_i htp; subst htp
      have hx' : nv = x := Option.some.inj hx
      subst hx'
      rcases h3 with h3 | h3 | h3
      · exact hold (by rw [hpv, h3])
      · rcases h.hi _ _ hsv with ⟨p, f, hf, hp, hs⟩ | ⟨q, u, hq, hs⟩
        · left
          refine ⟨(k, a) :: p, f, hf, .cons ⟨Nat.le_refl _, ha⟩ (hp.from_mono (Nat.le_succ _)), ?_⟩
          simp only [score, own]; rw [h3, hs]; grind
        · right
          refine ⟨(k, a) :: q, u, .cons ⟨Nat.le_refl _, ha⟩ (hq.from_mono (Nat.le_succ _)), ?_⟩
          simp only [score, own]; rw [h3, hs]; grind
      · right
        exact ⟨[], a.pred, .nil _, by rw [h3]; simp [score, Rat.add_zero]⟩
    · exact hold hx

theorem set_same {α : Type} {l : List α} {i : Nat} {x : α} (h : l[i]? = some x) : l.set i x = l := by
  apply List.ext_getElem?
  intro j
  have hi := (List.getElem?_eq_some_iff.1 h).1
  rw [getElem?_set' _ _ _ _ hi]
  by_cases hj : j = i
  · rw [if_pos hj, hj, h]
  · rw [if_neg hj]

theorem setAll_ok (x : Score) (l : List Nat) : ∀ (v : List Score), (∀ f ∈ l, f < v.length) →
    ∃ v', setAll x l v = some v' ∧ v'.length = v.length ∧
      ∀ t, v'[t]? = if t ∈ l then some x else v[t]? := by
  induction l with
  | nil => intro v _; exact ⟨v, rfl, rfl, by simp⟩
  | cons f l ih =>
    intro v h
    have hf := h f (List.mem_cons_self ..)
    obtain ⟨v', h1, h2, h3⟩ := ih (v.set f x) (by simpa using fun f' hf' => h f' (List.mem_cons_of_mem _ hf'))
    refine ⟨v', by simp only [setAll, hf, if_true, h1], by simpa using h2, ?_⟩
    intro t
    rw [h3, getElem?_set' _ _ _ _ hf]
    by_cases h4 : t ∈ l
    · simp [h4]
    · by_cases h5 : t = f
      · simp [h5]
      · simp [h4, h5]

theorem RInv.init {g : WG} {b : Score} {v : List Score} (hl : v.length = g.states.length)
    (hv : ∀ t : Nat, v[t]? = if t ∈ g.final then some b else (List.replicate g.states.length small)[t]?) :
    RInv g b g.arcs.length v := by
  refine ⟨hl, ?_, ?_⟩
  · intro t p f x hf hp hx
    obtain ⟨rfl, rfl⟩ := path_from_all (fun _ _ => live_arc) hp
    rw [hv, if_pos hf] at hx; cases hx
    simp [score, Rat.add_zero]
  · intro t x hx
    rw [hv] at hx
    split at hx
    · rename_i hf; cases hx
      exact Or.inl ⟨[], t, hf, .nil _, by simp [score, Rat.add_zero]⟩
    · rw [List.getElem?_replicate] at hx
      split at hx
      · cases hx; exact Or.inr ⟨[], t, .nil _, by simp [score, Rat.add_zero]⟩
      · cases hx

theorem restStep_ok {g : WG} (ht : Topo g) (hw : WF g) {b : Score} {k : Nat} {v : List Score}
    (h : RInv g b (k + 1) v) (hk : k < g.arcs.length)
    (hge : ∀ (t : Nat) x, t ∉ g.final → v[t]? = some x → small ≤ x) :
    ∃ v', restStep g k v = some v' ∧ RInv g b k v' ∧ (∀ (t : Nat) x, t ∉ g.final → v'[t]? = some x → small ≤ x) := by
  obtain ⟨a, ha⟩ : ∃ a, g.arcs[k]? = some a := ⟨_, List.getElem?_eq_getElem hk⟩
  have hkp : k < g.pruned.length := by rw [hw.pruned]; exact hk
  obtain ⟨fl, hf⟩ : ∃ fl, g.pruned[k]? = some fl := ⟨_, List.getElem?_eq_getElem hkp⟩
  unfold restStep arcPruned arc
  rw [hf, ha]
  cases fl with
  | true =>
    refine ⟨v, rfl, h.skip ht ?_, hge⟩
    intro a' h'
    rw [h'.2] at hf; cases hf
  | false =>
    have hpr := hw.pred k a ha
    have hsu := hw.succ k a ha
    have hpl : a.pred < v.length := by rw [h.len]; exact hpr
    obtain ⟨sv, hsv⟩ : ∃ x, v[a.succ]? = some x := ⟨_, List.getElem?_eq_getElem (by rw [h.len]; exact hsu)⟩
    obtain ⟨pv, hpv⟩ : ∃ x, v[a.pred]? = some x := ⟨_, List.getElem?_eq_getElem hpl⟩
    simp only [hsv, hpv]
    generalize hsc : (if a.score + sv < small then small else a.score + sv) = sc
    have h1 : a.score + sv ≤ sc := by rw [← hsc]; grind
    have h2 : sc = a.score + sv ∨ sc = small := by rw [← hsc]; grind
    refine ⟨_, rfl, ?_, ?_⟩
    · by_cases hgt : sc > pv
      · rw [if_pos hgt]
        exact h.upd ht ⟨ha, hf⟩ hpr hsv hpv h1 (Rat.le_of_lt hgt) (Or.inr h2)
      · rw [if_neg hgt]
        have := h.upd ht ⟨ha, hf⟩ hpr hsv hpv (nv := pv) (by grind) Rat.le_refl (Or.inl rfl)
        rwa [set_same hpv] at this
    · intro t x htf hx
      have h3 : small ≤ sc := by rw [← hsc]; grind
      split at hx
      · rw [getElem?_set' _ _ _ _ hpl] at hx
        split at hx
        · cases hx; exact h3
        · exact hge t x htf hx
      · exact hge t x htf hx

theorem restLoop_ok {g : WG} (ht : Topo g) (hw : WF g) {b : Score} :
    ∀ (k : Nat) (v : List Score), RInv g b k v → k ≤ g.arcs.length →
      (∀ (t : Nat) x, t ∉ g.final → v[t]? = some x → small ≤ x) →
      ∃ v', restLoop g (List.range k).reverse v = some v' ∧ RInv g b 0 v' ∧
        (∀ (t : Nat) x, t ∉ g.final → v'[t]? = some x → small ≤ x) := by
  intro k
  induction k with
  | zero => intro v h _ hge; exact ⟨v, rfl, h, hge⟩
  | succ k ih =>
    intro v h hk hge
    obtain ⟨v', h1, h2, h3⟩ := restStep_ok ht hw h (by omega) hge
    obtain ⟨v'', h4, h5⟩ := ih v' h2 (by omega) h3
    refine ⟨v'', ?_, h5⟩
    rw [List.range_succ, List.reverse_append, List.reverse_cons, List.reverse_nil, List.nil_append,
      List.singleton_append, restLoop, h1]
    exact h4

theorem calcRest_ok {g : WG} (ht : Topo g) (hw : WF g) (hf : FinalOk g) :
    ∃ v, calcRestScores g = some v ∧ RInv g g.init 0 v ∧ (∀ (t : Nat) x, t ∉ g.final → v[t]? = some x → small ≤ x) := by
  obtain ⟨v0, h1, h2, h3⟩ := setAll_ok g.init g.final (List.replicate g.states.length small)
    (fun f h => by simpa using hf f h)
  have h4 := RInv.init (g := g) (by simpa using h2) h3
  obtain ⟨v, h5, h6⟩ := restLoop_ok ht hw g.arcs.length v0 h4 (Nat.le_refl _) (by
    intro t x htf hx
    rw [h3, if_neg htf, List.getElem?_replicate] at hx
    split at hx
    · cases hx; exact Rat.le_refl
    · cases hx)
  exact ⟨v, by rw [calcRestScores, h1]; exact h5, h6⟩

theorem heurLoop_ok {g : WG} (ht : Topo g) (hw : WF g) {b : Score} :
    ∀ (k : Nat) (v : List Score), RInv g b k v → k ≤ g.arcs.length →
      ∃ v', heurLoop g (List.range k).reverse v = some v' ∧ RInv g b 0 v' := by
  intro k
  induction k with
  | zero => intro v h _; exact ⟨v, rfl, h⟩
  | succ k ih =>
    intro v h hk
    have hk' : k < g.arcs.length := by omega
    obtain ⟨a, ha⟩ : ∃ a, g.arcs[k]? = some a := ⟨_, List.getElem?_eq_getElem hk'⟩
    have hkp : k < g.pruned.length := by rw [hw.pruned]; exact hk'
    obtain ⟨fl, hf⟩ : ∃ fl, g.pruned[k]? = some fl := ⟨_, List.getElem?_eq_getElem hkp⟩
    rw [List.range_succ, List.reverse_append, List.reverse_cons, List.reverse_nil, List.nil_append,
      List.singleton_append, heurLoop]
    unfold arcPruned arc
    rw [hf, ha]
    cases fl with
    | true =>
      refine ih v (h.skip ht ?_) (by omega)
      intro a' h'
      rw [h'.2] at hf; cases hf
    | false =>
      have hpr := hw.pred k a ha
      have hsu := hw.succ k a ha
      obtain ⟨sv, hsv⟩ : ∃ x, v[a.succ]? = some x := ⟨_, List.getElem?_eq_getElem (by rw [h.len]; exact hsu)⟩
      obtain ⟨pv, hpv⟩ : ∃ x, v[a.pred]? = some x := ⟨_, List.getElem?_eq_getElem (by rw [h.len]; exact hpr)⟩
      simp only [hsv, hpv]
      by_cases hgt : pv < a.score + sv
      · rw [if_pos hgt]
        exact ih _ (h.upd ht ⟨ha, hf⟩ hpr hsv hpv Rat.le_refl (Rat.le_of_lt hgt) (Or.inr (Or.inl rfl))) (by omega)
      · rw [if_neg hgt]
        have := h.upd ht ⟨ha, hf⟩ hpr hsv hpv (nv := pv) (by grind) Rat.le_refl (Or.inl rfl)
        rw [set_same hpv] at this
        exact ih _ this (by omega)

theorem heurInfo_ok {g : WG} (ht : Topo g) (hw : WF g) (hf : FinalOk g) :
    ∃ v, heurInfo g = some v ∧ RInv g 0 0 v := by
  obtain ⟨v0, h1, h2, h3⟩ := setAll_ok 0 g.final (List.replicate g.states.length small) (fun f h => by simpa using hf f h)
  have h4 := RInv.init (g := g) (by simpa using h2) h3
  obtain ⟨v, h5, h6⟩ := heurLoop_ok ht hw g.arcs.length v0 h4 (Nat.le_refl _)
  exact ⟨v, by rw [heurInfo, h1]; exact h5, h6⟩

end Thot.WordGraph
