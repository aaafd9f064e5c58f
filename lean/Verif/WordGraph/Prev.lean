import Verif.WordGraph.Paths

/-! The loop of `calcPrevScoresWeights` computes best scores of paths. -/

namespace Thot.WordGraph

/-- Arcs that are neither pruned nor excluded. -/
def Allowed (g : WG) (ex : List Nat) (i : Nat) (a : Arc) : Prop := Live g i a ∧ i ∉ ex

/-- Effective score of an arc. -/
def eff (g : WG) (alt : List Score) (i : Nat) (a : Arc) : Score := (effScore g alt i a).getD 0

theorem live_arc {g : WG} {i : Nat} {a : Arc} (h : Live g i a) : g.arcs[i]? = some a := h.1

theorem allowed_arc {g : WG} {ex : List Nat} {i : Nat} {a : Arc} (h : Allowed g ex i a) : g.arcs[i]? = some a := h.1.1

theorem effScore_ok {g : WG} (hw : WF g) (alt : List Score) {i : Nat} {a : Arc} (h : g.arcs[i]? = some a) :
    effScore g alt i a = some (eff g alt i a) := by
  unfold eff effScore
  split
  · have : i < g.comps.length := by rw [hw.comps]; exact (List.getElem?_eq_some_iff.1 h).1
    simp [List.getElem?_eq_getElem this]
  · rfl

/-- Invariant of the loop after the arcs below `k`. -/
structure PInv (g : WG) (ex : List Nat) (w : Nat → Arc → Score) (s : Nat) (b : Score) (k : Nat) (st : PrevSt) : Prop where
  lenP : st.prev.length = g.states.length
  lenB : st.best.length = g.states.length
  lenA : st.acc.length = g.states.length
  acc : ∀ t : Nat, st.acc[t]? = some true ↔ t < g.states.length ∧ ∃ p, Path (Below (Live g) k) s p t
  src : st.prev[s]? = some b
  lo : ∀ (t : Nat) p v, Path (Below (Allowed g ex) k) s p t → st.prev[t]? = some v → b + score w p ≤ v
  hi : ∀ (t : Nat) v, st.prev[t]? = some v → (t = s ∧ v = b) ∨
    (∃ q u, Path (Below (Live g) k) u q t ∧ v = small + score w q) ∨
    (∃ i a u, Below (Allowed g ex) k i a ∧ a.succ = t ∧ st.best[t]? = some (some a) ∧ st.prev[a.pred]? = some u ∧
      v = u + w i a)
  ge : ∀ (t : Nat) v, t ≠ s → st.prev[t]? = some v → small ≤ v
  noacc : ∀ t : Nat, st.acc[t]? = some false → st.prev[t]? = some small

theorem getElem?_set' {α : Type} (l : List α) (i j : Nat) (v : α) (hi : i < l.length) :
    (l.set i v)[j]? = if j = i then some v else l[j]? := by
  rw [List.getElem?_set]
  by_cases h : i = j
  · subst h; simp [hi]
  · simp [h, Ne.symm h]

theorem PInv.skip {g : WG} (ht : Topo g) {ex : List Nat} {w : Nat → Arc → Score} {s : Nat} {b : Score} {k : Nat}
    {st : PrevSt} (h : PInv g ex w s b k st) (hk : ∀ a, ¬ Live g k a) : PInv g ex w s b (k + 1) st := by
  have e1 : ∀ {u p t}, Path (Below (Live g) (k + 1)) u p t ↔ Path (Below (Live g) k) u p t := by
    intro u p t
    refine ⟨fun hp => ?_, fun hp => hp.below_mono (Nat.le_succ _)⟩
    rcases path_below_succ ht (fun _ _ => live_arc) hp with h | ⟨a, _, ha, _⟩
    · exact h
    · exact absurd ha (hk a)
  have e2 : ∀ {u p t}, Path (Below (Allowed g ex) (k + 1)) u p t → Path (Below (Allowed g ex) k) u p t := by
    intro u p t hp
    rcases path_below_succ ht (fun _ _ => allowed_arc) hp with h | ⟨a, _, ha, _⟩
    · exact h
    · exact absurd ha.1 (hk a)
  refine ⟨h.lenP, h.lenB, h.lenA, ?_, h.src, ?_, ?_, h.ge, h.noacc⟩
  · intro t; rw [h.acc]; simp only [e1]
  · intro t p v hp hv; exact h.lo t p v (e2 hp) hv
  · intro t v hv
    rcases h.hi t v hv with h | ⟨q, u, h1, h2⟩ | ⟨i, a, u, h1, h2⟩
    · exact Or.inl h
    · exact Or.inr (Or.inl ⟨q, u, e1.2 h1, h2⟩)
    · exact Or.inr (Or.inr ⟨i, a, u, ⟨Nat.lt_succ_of_lt h1.1, h1.2⟩, h2⟩)

theorem no_cycle {g : WG} (ht : Topo g) {P : Nat → Arc → Prop} (hP : ∀ i a, P i a → g.arcs[i]? = some a)
    {s : Nat} {p : List (Nat × Arc)} {i : Nat} {a : Arc} (hp : Path P s p a.pred) (ha : P i a) : a.succ ≠ s := by
  intro hs
  have hc := hp.snoc ha
  cases hp with
  | nil => exact ht i i a a (hP _ _ ha) (hP _ _ ha) (Nat.le_refl _) hs
  | @cons j b p t h1 h2 =>
    have hinc := hc.increasing ht hP
    have : j < i := by
      rw [List.cons_append] at hinc
      simp only [List.map_cons, List.pairwise_cons] at hinc
      exact hinc.1.1 i (by simp)
    exact ht j i b a (hP _ _ h1) (hP _ _ ha) (by omega) hs

theorem PInv.step {g : WG} (ht : Topo g) (hw : WF g) {ex : List Nat} {alt : List Score} {s : Nat} {b : Score} {k : Nat}
    {st : PrevSt} (h : PInv g ex (eff g alt) s b k st) (hk : k < g.arcs.length) :
    ∃ st', prevStep g ex alt k st = some st' ∧ PInv g ex (eff g alt) s b (k + 1) st' := by
  obtain ⟨a, ha⟩ : ∃ a, g.arcs[k]? = some a := ⟨_, List.getElem?_eq_getElem hk⟩
  have hkp : k < g.pruned.length := by rw [hw.pruned]; exact hk
  obtain ⟨fl, hf⟩ : ∃ fl, g.pruned[k]? = some fl := ⟨_, List.getElem?_eq_getElem hkp⟩
  unfold prevStep arcPruned arc
  rw [hf, ha]
  cases fl with
  | true =>
    refine ⟨st, rfl, h.skip ht ?_⟩
    intro a' h'
    rw [h'.2] at hf; cases hf
  | false =>
    have hlive : Live g k a := ⟨ha, hf⟩
    have hu : ∀ {a'}, Live g k a' → a' = a := fun h' => by
      have := h'.1; rw [ha] at this; exact (Option.some.inj this).symm
    have hpr := hw.pred k a ha
    have hsu := hw.succ k a ha
    have hne : a.succ ≠ a.pred := ht k k a a ha ha (Nat.le_refl _)
    have hpa : a.pred < st.acc.length := by rw [h.lenA]; exact hpr
    have hsa : a.succ < st.acc.length := by rw [h.lenA]; exact hsu
    have hpp : a.pred < st.prev.length := by rw [h.lenP]; exact hpr
    have hsp : a.succ < st.prev.length := by rw [h.lenP]; exact hsu
    have hsb : a.succ < st.best.length := by rw [h.lenB]; exact hsu
    simp only
    cases hacc : st.acc[a.pred]? with
    | none => rw [List.getElem?_eq_getElem hpa] at hacc; cases hacc
    | some ap =>
    cases ap with
    | true =>
      obtain ⟨pv, hpv⟩ : ∃ v, st.prev[a.pred]? = some v := ⟨_, List.getElem?_eq_getElem hpp⟩
      obtain ⟨sv, hsv⟩ : ∃ v, st.prev[a.succ]? = some v := ⟨_, List.getElem?_eq_getElem hsp⟩
      obtain ⟨-, p0, hp0⟩ := (h.acc _).1 hacc
      have hss : a.succ ≠ s := by
        have h1 : Below (Live g) (k + 1) k a := ⟨Nat.lt_succ_self _, hlive⟩
        exact no_cycle ht (fun _ _ h => h.2.1) (hp0.below_mono (Nat.le_succ _)) h1
      simp only [effScore_ok hw alt ha, hpv, hsv]
      refine ⟨_, rfl, ?_⟩
      have hsge := h.ge _ _ hss hsv
      -- the new score
      generalize hsc : (if (if ex.contains k = true then small else eff g alt k a + pv) < small then small
        else if ex.contains k = true then small else eff g alt k a + pv) = sc
      have hscge : small ≤ sc := by rw [← hsc]; grind
      have hsclo : k ∉ ex → eff g alt k a + pv ≤ sc := by
        intro hx
        have : ex.contains k = false := by simpa using hx
        rw [this] at hsc; simp at hsc; rw [← hsc]; grind
      have hschi : (k ∉ ex ∧ sc = pv + eff g alt k a) ∨ sc = small := by
        by_cases hx : k ∈ ex
        · have : ex.contains k = true := by simpa using hx
          rw [this] at hsc; simp at hsc; right; rw [← hsc]
        · have : ex.contains k = false := by simpa using hx
          rw [this] at hsc; simp at hsc
          split at hsc
          · right; exact hsc.symm
          · left; refine ⟨hx, ?_⟩; rw [← hsc]; grind
      -- the new state
      let nv : Score := if sc > sv then sc else sv
      have hprev : ∀ t : Nat, (relaxPrev st a (ex.contains k) (eff g alt k a) pv sv).prev[t]? =
          if t = a.succ then some nv else st.prev[t]? := by
        intro t
        unfold relaxPrev
        simp only [hsc]
        by_cases hgt : sc > sv
        · simp only [hgt, if_true, nv]; exact getElem?_set' _ _ _ _ hsp
        · simp only [hgt, if_false, nv]
          by_cases ht' : t = a.succ
          · simp [ht', hsv]
          · simp [ht']
      have hbest : ∀ t : Nat, (relaxPrev st a (ex.contains k) (eff g alt k a) pv sv).best[t]? =
          if t = a.succ ∧ sc > sv then some (some a) else st.best[t]? := by
        intro t
        unfold relaxPrev
        simp only [hsc]
        by_cases hgt : sc > sv
        · simp only [hgt, if_true, and_true]; exact getElem?_set' _ _ _ _ hsb
        · simp [hgt]
      have haccN : ∀ t : Nat, (relaxPrev st a (ex.contains k) (eff g alt k a) pv sv).acc[t]? =
          if t = a.succ then some true else st.acc[t]? := by
        intro t
        unfold relaxPrev
        simp only [hsc]
        by_cases hgt : sc > sv
        · simp only [hgt, if_true]; exact getElem?_set' _ _ _ _ hsa
        · simp only [hgt, if_false]; exact getElem?_set' _ _ _ _ hsa
      have hlens : (relaxPrev st a (ex.contains k) (eff g alt k a) pv sv).prev.length = st.prev.length ∧
          (relaxPrev st a (ex.contains k) (eff g alt k a) pv sv).best.length = st.best.length ∧
          (relaxPrev st a (ex.contains k) (eff g alt k a) pv sv).acc.length = st.acc.length := by
        unfold relaxPrev
        simp only [hsc]
        split <;> simp
      generalize relaxPrev st a (ex.contains k) (eff g alt k a) pv sv = st' at *
      have hnvge : sv ≤ nv := by simp only [nv]; grind
      have hnvsc : sc ≤ nv := by simp only [nv]; grind
      refine ⟨by rw [hlens.1, h.lenP], by rw [hlens.2.1, h.lenB], by rw [hlens.2.2, h.lenA], ?_, ?_, ?_, ?_, ?_, ?_⟩
      · intro t
        rw [haccN]
        split
        · rename_i ht'
          subst ht'
          simp only [true_iff]
          exact ⟨hsu, _, (hp0.below_mono (Nat.le_succ _)).snoc ⟨Nat.lt_succ_self _, hlive⟩⟩
        · rename_i ht'
          rw [h.acc]
          refine and_congr_right fun _ => ⟨fun ⟨p, hp⟩ => ⟨p, hp.below_mono (Nat.le_succ _)⟩, fun ⟨p, hp⟩ => ?_⟩
          rcases path_below_succ ht (fun _ _ => live_arc) hp with hp | ⟨a', p', ha', hat, -⟩
          · exact ⟨p, hp⟩
          · rw [hu ha'] at hat; exact absurd hat.symm ht'
      · rw [hprev, if_neg (Ne.symm hss)]; exact h.src
      · intro t p v hp hv
        rw [hprev] at hv
        rcases path_below_succ ht (fun _ _ => allowed_arc) hp with hp | ⟨a', p', ha', hat, hpe, hp'⟩
        · split at hv
          · rename_i ht'; subst ht'
            cases hv
            exact Rat.le_trans (h.lo _ _ _ hp hsv) hnvge
          · exact h.lo _ _ _ hp hv
        · have := hu ha'.1; subst this
          rw [if_pos hat.symm] at hv
          cases hv
          rw [hpe, score_snoc]
          have h1 := h.lo _ _ _ hp' hpv
          have h2 := hsclo ha'.2
          grind
      · intro t v hv
        rw [hprev] at hv
        by_cases hcase : t = a.succ ∧ sc > sv
        · obtain ⟨rfl, hgt⟩ := hcase
          simp only [nv, hgt, if_true, Option.some.injEq] at hv
          subst hv
          rcases hschi with ⟨hx, hsc2⟩ | hsc2
          · right; right
            refine ⟨k, a, pv, ⟨Nat.lt_succ_self _, hlive, hx⟩, rfl, ?_, ?_, hsc2⟩
            · rw [hbest, if_pos ⟨rfl, hgt⟩]
            · rw [hprev, if_neg (Ne.symm hne)]; exact hpv
          · right; left
            exact ⟨[], a.succ, .nil _, by rw [hsc2]; simp [score, Rat.add_zero]⟩
        · have hv' : st.prev[t]? = some v := by
            split at hv
            · rename_i ht'
              have : ¬ sc > sv := fun h => hcase ⟨ht', h⟩
              simp only [nv, this, if_false] at hv
              rw [ht', hsv]; exact hv
            · exact hv
          rcases h.hi t v hv' with h1 | ⟨q, u, h1, h2⟩ | ⟨i, a', u, h1, h2, h3, h4, h5⟩
          · exact Or.inl h1
          · exact Or.inr (Or.inl ⟨q, u, h1.below_mono (Nat.le_succ _), h2⟩)
          · refine Or.inr (Or.inr ⟨i, a', u, ⟨Nat.lt_succ_of_lt h1.1, h1.2⟩, h2, ?_, ?_, h5⟩)
            · rw [hbest, if_neg hcase]; exact h3
            · rw [hprev, if_neg]
              · exact h4
              · exact (ht i k a' a h1.2.1.1 ha (Nat.le_of_lt h1.1)).symm
      · intro t v hts hv
        rw [hprev] at hv
        split at hv
        · cases hv; exact Rat.le_trans hsge hnvge
        · exact h.ge t v hts hv
      · intro t hta
        rw [haccN] at hta
        split at hta
        · cases hta
        · rename_i ht'
          rw [hprev, if_neg ht']; exact h.noacc t hta
    | false =>
      have hnp : ∀ p, ¬ Path (Below (Live g) k) s p a.pred := by
        intro p hp
        have := (h.acc a.pred).2 ⟨hpr, p, hp⟩
        rw [hacc] at this; cases this
      have key : PInv g ex (eff g alt) s b (k + 1) st := by
        refine ⟨h.lenP, h.lenB, h.lenA, ?_, h.src, ?_, ?_, h.ge, h.noacc⟩
        · intro t
          rw [h.acc]
          refine and_congr_right fun _ => ⟨fun ⟨p, hp⟩ => ⟨p, hp.below_mono (Nat.le_succ _)⟩, fun ⟨p, hp⟩ => ?_⟩
          rcases path_below_succ ht (fun _ _ => live_arc) hp with hp | ⟨a', p', ha', hat, -, hp'⟩
          · exact ⟨p, hp⟩
          · rw [hu ha'] at hp'; exact absurd hp' (hnp p')
        · intro t p v hp hv
          rcases path_below_succ ht (fun _ _ => allowed_arc) hp with hp | ⟨a', p', ha', hat, -, hp'⟩
          · exact h.lo t p v hp hv
          · rw [hu ha'.1] at hp'
            exact absurd (hp'.mono fun i a h => ⟨h.1, h.2.1⟩) (hnp p')
        · intro t v hv
          rcases h.hi t v hv with h1 | ⟨q, u, h1, h2⟩ | ⟨i, a', u, h1, h2⟩
          · exact Or.inl h1
          · exact Or.inr (Or.inl ⟨q, u, h1.below_mono (Nat.le_succ _), h2⟩)
          · exact Or.inr (Or.inr ⟨i, a', u, ⟨Nat.lt_succ_of_lt h1.1, h1.2⟩, h2⟩)
      simp only
      cases hsacc : st.acc[a.succ]? with
      | none => rw [List.getElem?_eq_getElem hsa] at hsacc; cases hsacc
      | some as =>
        cases as with
        | true => exact ⟨st, rfl, key⟩
        | false =>
          have hs0 := h.noacc _ hsacc
          have : st.prev.set a.succ small = st.prev := by
            apply List.ext_getElem?
            intro t
            rw [getElem?_set' _ _ _ _ hsp]
            split
            · rename_i ht'; rw [ht', hs0]
            · rfl
          exact ⟨_, rfl, by simp only [this]; exact key⟩

theorem PInv.loop {g : WG} (ht : Topo g) (hw : WF g) {ex : List Nat} {alt : List Score} {s : Nat} {b : Score} :
    ∀ (n k : Nat) (st : PrevSt), PInv g ex (eff g alt) s b k st → k + n = g.arcs.length →
      ∃ st', prevLoop g ex alt (List.range' k n) st = some st' ∧ PInv g ex (eff g alt) s b g.arcs.length st' := by
  intro n
  induction n with
  | zero => intro k st h hk; simp at hk; subst hk; exact ⟨st, rfl, h⟩
  | succ n ih =>
    intro k st h hk
    obtain ⟨st', h1, h2⟩ := h.step ht hw (by omega)
    obtain ⟨st'', h3, h4⟩ := ih (k + 1) st' h2 (by omega)
    exact ⟨st'', by rw [List.range'_succ, prevLoop, h1]; exact h3, h4⟩

/-- Score of the starting state. -/
def baseScore (g : WG) (s : Nat) : Score := if s = initialState then g.init else 0

/-- The invariant holds at the end. -/
theorem calcPrev_ok {g : WG} (ht : Topo g) (hw : WF g) (hne : g.arcs ≠ []) (s : Nat) (hs : s < g.states.length)
    (ex : List Nat) (alt : List Score) :
    ∃ st, calcPrevScoresWeights g s ex alt = some (st.prev, st.best) ∧
      PInv g ex (eff g alt) s (baseScore g s) g.arcs.length st := by
  have h0 : PInv g ex (eff g alt) s (baseScore g s) 0
      ⟨(List.replicate g.states.length small).set s (baseScore g s), List.replicate g.states.length none,
        (List.replicate g.states.length false).set s true⟩ := by
    have hp : ∀ t : Nat, ((List.replicate g.states.length small).set s (baseScore g s))[t]? =
        if t = s then some (baseScore g s) else if t < g.states.length then some small else none := by
      intro t
      rw [getElem?_set' _ _ _ _ (by simpa using hs), List.getElem?_replicate]
    have ha : ∀ t : Nat, ((List.replicate g.states.length false).set s true)[t]? =
        if t = s then some true else if t < g.states.length then some false else none := by
      intro t
      rw [getElem?_set' _ _ _ _ (by simpa using hs), List.getElem?_replicate]
    refine ⟨by simp, by simp, by simp, ?_, ?_, ?_, ?_, ?_, ?_⟩
    · intro t
      simp only [ha]
      constructor
      · intro h
        split at h
        · rename_i h'; subst h'; exact ⟨hs, [], .nil _⟩
        · split at h <;> simp at h
      · rintro ⟨-, p, hp'⟩
        simp [(path_below_zero hp').2]
    · simp only [hp]; simp
    · intro t p v hpt hv
      obtain ⟨rfl, rfl⟩ := path_below_zero hpt
      simp only [hp] at hv
      simp at hv
      rw [hv]; simp [score, Rat.add_zero]
    · intro t v hv
      simp only [hp] at hv
      split at hv
      · rename_i h'; cases hv; exact Or.inl ⟨h', rfl⟩
      · split at hv
        · cases hv; exact Or.inr (Or.inl ⟨[], t, .nil _, by simp [score, Rat.add_zero]⟩)
        · cases hv
    · intro t v hts hv
      simp only [hp, hts, if_false] at hv
      split at hv
      · cases hv; exact Rat.le_refl
      · cases hv
    · intro t hta
      simp only [ha] at hta
      simp only [hp]
      split at hta
      · cases hta
      · rename_i h'; rw [if_neg h']; split at hta
        · rename_i h2; rw [if_pos h2]
        · cases hta
  obtain ⟨st, h1, h2⟩ := PInv.loop (ex := ex) (alt := alt) ht hw g.arcs.length 0 _ h0 (by omega)
  refine ⟨st, ?_, h2⟩
  unfold calcPrevScoresWeights isEmpty
  have : g.arcs.isEmpty = false := by simpa using hne
  rw [this]
  simp only [Bool.false_eq_true, if_false, hs, if_true]
  rw [List.range_eq_range']
  unfold baseScore at h1
  rw [h1]
  rfl

/-- Every score is that of an allowed path recovered by following the best predecessors, or a small
score plus the score of some path. -/
theorem PInv.chain {g : WG} (ht : Topo g) {ex : List Nat} {w : Nat → Arc → Score} {s : Nat} {b : Score}
    {st : PrevSt} {k : Nat} (h : PInv g ex w s b k st) :
    ∀ (m t : Nat) (v : Score), (∀ j c, g.arcs[j]? = some c → c.succ = t → j < k → j < m) → st.prev[t]? = some v →
      (∃ q u, Path (Live g) u q t ∧ v = small + score w q) ∨
      (∃ p, Path (Allowed g ex) s p t ∧ v = b + score w p ∧
        ∀ fuel, m ≤ fuel → followBest st.best s fuel t = some (p.map Prod.snd).reverse) := by
  intro m
  induction m with
  | zero =>
    intro t v hm hv
    rcases h.hi t v hv with ⟨rfl, rfl⟩ | ⟨q, u, h1, h2⟩ | ⟨i, a, u, h1, h2, h3, h4, h5⟩
    · right
      exact ⟨[], .nil _, by simp [score, Rat.add_zero], fun fuel _ => by unfold followBest; simp⟩
    · exact Or.inl ⟨q, u, h1.mono fun _ _ h => h.2, h2⟩
    · exact absurd (hm i a h1.2.1.1 h2 h1.1) (by omega)
  | succ m ih =>
    intro t v hm hv
    by_cases hts : t = s
    · subst hts
      right
      refine ⟨[], .nil _, ?_, fun fuel _ => by unfold followBest; simp⟩
      rw [h.src] at hv; cases hv; simp [score, Rat.add_zero]
    rcases h.hi t v hv with ⟨hts', -⟩ | ⟨q, u, h1, h2⟩ | ⟨i, a, u, h1, h2, h3, h4, h5⟩
    · exact absurd hts' hts
    · exact Or.inl ⟨q, u, h1.mono fun _ _ h => h.2, h2⟩
    · subst h2
      have hi := hm i a h1.2.1.1 rfl h1.1
      have hm' : ∀ j c, g.arcs[j]? = some c → c.succ = a.pred → j < k → j < m := by
        intro j c hj hc hjk
        have := ht.lt hj h1.2.1.1 hc
        omega
      rcases ih a.pred u hm' h4 with ⟨q, u', hq, hu⟩ | ⟨p, hp, hu, hfol⟩
      · left
        exact ⟨_, u', hq.snoc h1.2.1, by rw [score_snoc, h5, hu]; grind⟩
      · right
        refine ⟨_, hp.snoc h1.2, by rw [score_snoc, h5, hu]; grind, ?_⟩
        intro fuel hf
        obtain ⟨f, rfl⟩ : ∃ f, fuel = f + 1 := ⟨fuel - 1, by omega⟩
        unfold followBest
        rw [if_neg hts, h3]
        simp only [hfol f (by omega), Option.map_some, List.map_append, List.map_cons, List.map_nil,
          List.reverse_append, List.reverse_cons, List.reverse_nil, List.nil_append, List.singleton_append]

end Thot.WordGraph
