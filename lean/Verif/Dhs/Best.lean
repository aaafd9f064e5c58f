import Verif.Dhs.Props
namespace Thot.Dhs

theorem lt_le {a b c : Rat} (h : a < b) (h2 : b ≤ c) : a < c :=
  Rat.not_le.1 (fun hc => absurd h (Rat.not_lt.2 (Rat.le_trans h2 hc)))

theorem le_lt {a b c : Rat} (h : a ≤ b) (h2 : b < c) : a < c :=
  Rat.not_le.1 (fun hc => absurd h2 (Rat.not_lt.2 (Rat.le_trans hc h)))

/-! ### Array elements and indices -/

theorem at_set (l : List Rat) (i j : Nat) (y : Rat) (hi : i < l.length) : at' (l.set i y) j = if j = i then y else at' l j := by
  unfold at'
  by_cases h : j = i
  · subst h; simp [hi]
  · rw [if_neg h, List.getElem?_set_ne (fun hc => h hc.symm)]

theorem vat_set (l : List Pt) (i j : Nat) (p : Pt) (hi : i < l.length) : vat (l.set i p) j = if j = i then p else vat l j := by
  unfold vat
  by_cases h : j = i
  · subst h; simp [hi]
  · rw [if_neg h, List.getElem?_set_ne (fun hc => h hc.symm)]

theorem scan_min (f : List Rat) : ∀ m, m ≤ f.length → 0 < m →
    let s := (List.range m).foldl (fun s j => if at' f j < at' f s then j else s) 0
    s < m ∧ (∀ j, j < m → at' f s ≤ at' f j) ∧ (∀ j, j < s → at' f s < at' f j)
  | 0, _, h => by omega
  | 1, _, _ => by
    refine ⟨?_, ?_, ?_⟩
    · simp [List.range_succ, Rat.lt_irrefl]
    · intro j hj
      have : j = 0 := by omega
      subst this
      simp [List.range_succ, Rat.lt_irrefl, Rat.le_refl]
    · intro j hj
      simp [List.range_succ, Rat.lt_irrefl] at hj
  | m + 2, hm, _ => by
    obtain ⟨h1, h2, h3⟩ := scan_min f (m + 1) (by omega) (by omega)
    rw [List.range_succ, List.foldl_append, List.foldl_cons, List.foldl_nil]
    generalize (List.range (m + 1)).foldl (fun s j => if at' f j < at' f s then j else s) 0 = s at h1 h2 h3
    by_cases h : at' f (m + 1) < at' f s
    · simp only [if_pos h]
      refine ⟨by omega, ?_, ?_⟩
      · intro j hj
        by_cases hj' : j = m + 1
        · rw [hj']; exact Rat.le_refl
        · exact Rat.le_trans (Rat.le_of_lt h) (h2 j (by omega))
      · intro j hj
        exact lt_le h (h2 j hj)
    · simp only [if_neg h]
      refine ⟨by omega, ?_, h3⟩
      intro j hj
      by_cases hj' : j = m + 1
      · rw [hj']; exact Rat.not_lt.1 h
      · exact h2 j (by omega)

theorem scan_max (f : List Rat) : ∀ m, m ≤ f.length → 0 < m →
    let s := (List.range m).foldl (fun s j => if at' f j > at' f s then j else s) 0
    s < m ∧ (∀ j, j < m → at' f j ≤ at' f s)
  | 0, _, h => by omega
  | 1, _, _ => by
    refine ⟨?_, ?_⟩
    · simp [List.range_succ, Rat.lt_irrefl]
    · intro j hj
      have : j = 0 := by omega
      subst this
      simp [List.range_succ, Rat.lt_irrefl, Rat.le_refl]
  | m + 2, hm, _ => by
    obtain ⟨h1, h2⟩ := scan_max f (m + 1) (by omega) (by omega)
    rw [List.range_succ, List.foldl_append, List.foldl_cons, List.foldl_nil]
    generalize (List.range (m + 1)).foldl (fun s j => if at' f j > at' f s then j else s) 0 = s at h1 h2
    by_cases h : at' f (m + 1) > at' f s
    · simp only [if_pos h]
      refine ⟨by omega, ?_⟩
      intro j hj
      by_cases hj' : j = m + 1
      · rw [hj']; exact Rat.le_refl
      · exact Rat.le_trans (h2 j (by omega)) (Rat.le_of_lt h)
    · simp only [if_neg h]
      refine ⟨by omega, ?_⟩
      intro j hj
      by_cases hj' : j = m + 1
      · rw [hj']; exact Rat.not_lt.1 h
      · exact h2 j (by omega)

theorem scan_second (f : List Rat) (vs vg : Nat) (hvs : vs < f.length) : ∀ m, m ≤ f.length →
    let h := (List.range m).foldl (fun h j => if at' f j > at' f h ∧ at' f j < at' f vg then j else h) vs
    h < f.length ∧ (h = vs ∨ at' f h < at' f vg)
  | 0, _ => by simp [hvs]
  | m + 1, hm => by
    obtain ⟨h1, h2⟩ := scan_second f vs vg hvs m (by omega)
    rw [List.range_succ, List.foldl_append, List.foldl_cons, List.foldl_nil]
    generalize (List.range m).foldl (fun h j => if at' f j > at' f h ∧ at' f j < at' f vg then j else h) vs = h at h1 h2
    by_cases hc : at' f m > at' f h ∧ at' f m < at' f vg
    · simp only [if_pos hc]
      exact ⟨by omega, .inr hc.2⟩
    · simp only [if_neg hc]
      exact ⟨h1, h2⟩

theorem smallest_spec {f : List Rat} (h : 0 < f.length) : smallest f < f.length ∧
    (∀ j, j < f.length → at' f (smallest f) ≤ at' f j) ∧ (∀ j, j < smallest f → at' f (smallest f) < at' f j) :=
  scan_min f f.length (Nat.le_refl _) h

theorem largest_spec {f : List Rat} (h : 0 < f.length) : largest f < f.length ∧ (∀ j, j < f.length → at' f j ≤ at' f (largest f)) :=
  scan_max f f.length (Nat.le_refl _) h

theorem second_spec {f : List Rat} {vs vg : Nat} (h : vs < f.length) : second f vs vg < f.length ∧
    (second f vs vg = vs ∨ at' f (second f vs vg) < at' f vg) := scan_second f vs vg h f.length (Nat.le_refl _)

/-! ### C190: the best point is never lost -/

/-- The recorded value of the best vertex is its value, and no point evaluated so far has a smaller one. -/
structure Best (F : Pt → Rat) (n : Nat) (tr : List Pt) (st : St) : Prop where
  lenV : st.v.length = n + 1
  lenF : st.f.length = n + 1
  acc : at' st.f (smallest st.f) = F (vat st.v (smallest st.f))
  min : ∀ p ∈ tr, at' st.f (smallest st.f) ≤ F p

/-- The vertices in `N` have been evaluated, the recorded values of the others are the old ones. -/
theorem best_step {F : Pt → Rat} {n : Nat} {tr : List Pt} {st st' : St} (h : Best F n tr st) (N : Nat → Prop)
    (hv : st'.v.length = n + 1) (hf : st'.f.length = n + 1)
    (hN : ∀ j, N j → at' st'.f j = F (vat st'.v j)) (hO : ∀ j, j < n + 1 → ¬ N j → at' st'.f j = at' st.f j)
    (hs : ¬ N (smallest st.f) → vat st'.v (smallest st.f) = vat st.v (smallest st.f))
    (hs' : at' st'.f (smallest st.f) ≤ at' st.f (smallest st.f)) (new : List Pt)
    (hnew : ∀ p ∈ new, ∃ j, j < n + 1 ∧ at' st'.f j ≤ F p) :
    Best F n (tr ++ new) st' := by
  have hl : 0 < st.f.length := by rw [h.lenF]; omega
  have hl' : 0 < st'.f.length := by rw [hf]; omega
  obtain ⟨a1, a2, a3⟩ := smallest_spec hl
  obtain ⟨b1, b2, b3⟩ := smallest_spec hl'
  rw [h.lenF] at a1 a2
  rw [hf] at b1 b2
  have hle : at' st'.f (smallest st'.f) ≤ at' st.f (smallest st.f) := Rat.le_trans (b2 _ a1) hs'
  refine ⟨hv, hf, ?_, ?_⟩
  · by_cases hN' : N (smallest st'.f)
    · exact hN _ hN'
    · have e1 := hO _ b1 hN'
      have e2 := a2 _ b1
      have e3 : at' st.f (smallest st'.f) = at' st.f (smallest st.f) := Rat.le_antisymm (e1 ▸ hle) e2
      have e4 : smallest st'.f = smallest st.f := by
        rcases Nat.lt_trichotomy (smallest st'.f) (smallest st.f) with hlt | heq | hgt
        · have := a3 _ hlt
          rw [e3] at this
          exact absurd this Rat.lt_irrefl
        · exact heq
        · have := b3 _ hgt
          rw [e1, e3] at this
          exact absurd (lt_le this hs') Rat.lt_irrefl
      rw [e1, e3, h.acc, e4]
      rw [e4] at hN'
      rw [hs hN']
  · intro p hp
    rcases List.mem_append.1 hp with hp | hp
    · exact Rat.le_trans hle (h.min p hp)
    · obtain ⟨j, hj, hj'⟩ := hnew p hp
      exact Rat.le_trans (b2 j hj) hj'

theorem replace_at (st : St) (i j : Nat) (p : Pt) (y : Rat) (hf : i < st.f.length) :
    at' (replace st i p y).f j = if j = i then y else at' st.f j := at_set _ _ _ _ hf

theorem replace_vat (st : St) (i j : Nat) (p : Pt) (y : Rat) (hv : i < st.v.length) :
    vat (replace st i p y).v j = if j = i then p else vat st.v j := vat_set _ _ _ _ hv

theorem replace_len (st : St) (i : Nat) (p : Pt) (y : Rat) :
    (replace st i p y).v.length = st.v.length ∧ (replace st i p y).f.length = st.f.length := by simp [replace]

theorem shrink_len (n : Nat) (v : List Pt) (vs : Nat) : (shrink n v vs).length = n + 1 := by simp [shrink]

theorem shrink_vs (n : Nat) (v : List Pt) (vs : Nat) (h : vs < n + 1) : vat (shrink n v vs) vs = vat v vs := by
  have e : (shrink n v vs)[vs]? = some (vat v vs) := by
    simp only [shrink, List.getElem?_map, List.getElem?_range h, Option.map_some]
    simp
  rw [vat, e]; rfl

/-- One vertex replaced by an evaluated point with a value not above the old one, or any value if the vertex is not
the best one. -/
theorem best_replace {F : Pt → Rat} {n : Nat} {tr : List Pt} {st : St} (h : Best F n tr st) (i : Nat) (hi : i < n + 1) (p : Pt)
    (hle : smallest st.f = i → F p ≤ at' st.f i) (new : List Pt)
    (hnew : ∀ q ∈ new, F p ≤ F q ∨ ∃ j, j < n + 1 ∧ j ≠ i ∧ at' st.f j ≤ F q) :
    Best F n (tr ++ new) (replace st i p (F p)) := by
  have hif : i < st.f.length := by rw [h.lenF]; exact hi
  have hiv : i < st.v.length := by rw [h.lenV]; exact hi
  refine best_step h (fun j => j = i) ?_ ?_ ?_ ?_ ?_ ?_ new ?_
  · rw [(replace_len ..).1, h.lenV]
  · rw [(replace_len ..).2, h.lenF]
  · intro j hj
    rw [replace_at _ _ _ _ _ hif, replace_vat _ _ _ _ _ hiv, if_pos hj, if_pos hj]
  · intro j _ hj
    rw [replace_at _ _ _ _ _ hif, if_neg hj]
  · intro hj
    rw [replace_vat _ _ _ _ _ hiv, if_neg hj]
  · rw [replace_at _ _ _ _ _ hif]
    split
    · next hc => rw [hc]; exact hle hc
    · exact Rat.le_refl
  · intro q hq
    rcases hnew q hq with hq | ⟨j, hj, hji, hjq⟩
    · exact ⟨i, hi, by rw [replace_at _ _ _ _ _ hif, if_pos rfl]; exact hq⟩
    · exact ⟨j, hj, by rw [replace_at _ _ _ _ _ hif, if_neg hji]; exact hjq⟩

/-- Shrinking, evaluating two vertices. -/
theorem best_shrink {F : Pt → Rat} {n : Nat} {tr : List Pt} {st : St} (h : Best F n tr st) (vg vh : Nat) (hg : vg < n + 1)
    (hh : vh < n + 1) (new : List Pt) (hnew : ∀ q ∈ new, at' st.f (smallest st.f) ≤ F q) :
    Best F n (tr ++ (new ++ [vat (shrink n st.v (smallest st.f)) vg, vat (shrink n st.v (smallest st.f)) vh]))
      ⟨shrink n st.v (smallest st.f), (st.f.set vg (F (vat (shrink n st.v (smallest st.f)) vg))).set vh
        (F (vat (shrink n st.v (smallest st.f)) vh))⟩ := by
  have hl : 0 < st.f.length := by rw [h.lenF]; omega
  obtain ⟨a1, a2, a3⟩ := smallest_spec hl
  have hvs : smallest st.f < n + 1 := by rw [← h.lenF]; exact a1
  have hat : ∀ j, at' ((st.f.set vg (F (vat (shrink n st.v (smallest st.f)) vg))).set vh
      (F (vat (shrink n st.v (smallest st.f)) vh))) j =
      if j = vh ∨ j = vg then F (vat (shrink n st.v (smallest st.f)) j) else at' st.f j := by
    intro j
    rw [at_set _ _ _ _ (by rw [List.length_set, h.lenF]; exact hh), at_set _ _ _ _ (by rw [h.lenF]; exact hg)]
    by_cases h1 : j = vh
    · simp [h1]
    · by_cases h2 : j = vg
      · simp only [h2]; rw [if_neg (fun hc => h1 (h2.trans hc))]; simp
      · simp [h1, h2]
  have hle : at' ((st.f.set vg (F (vat (shrink n st.v (smallest st.f)) vg))).set vh
      (F (vat (shrink n st.v (smallest st.f)) vh))) (smallest st.f) ≤ at' st.f (smallest st.f) := by
    rw [hat]
    split
    · rw [shrink_vs n st.v _ hvs, ← h.acc]; exact Rat.le_refl
    · exact Rat.le_refl
  refine best_step h (fun j => j = vh ∨ j = vg) (shrink_len ..) (by simp [h.lenF]) ?_ ?_ ?_ hle _ ?_
  · intro j hj
    simp only [hat, if_pos hj]
  · intro j _ hj
    simp only [hat, if_neg hj]
  · intro _
    exact shrink_vs n st.v _ hvs
  · intro q hq
    rcases List.mem_append.1 hq with hq | hq
    · exact ⟨smallest st.f, hvs, Rat.le_trans hle (hnew q hq)⟩
    · simp only [List.mem_cons, List.not_mem_nil, or_false] at hq
      rcases hq with rfl | rfl
      · exact ⟨vg, hg, by show at' _ _ ≤ _; rw [hat, if_pos (.inr rfl)]; exact Rat.le_refl⟩
      · exact ⟨vh, hh, by show at' _ _ ≤ _; rw [hat, if_pos (.inl rfl)]; exact Rat.le_refl⟩

/-- If all recorded values are the same and vertex 0 is lowered, it is the best one. -/
theorem smallest_unique {f : List Rat} {s : Nat} (hs : s < f.length) (h2 : ∀ j, j < f.length → at' f s ≤ at' f j)
    (h3 : ∀ j, j < s → at' f s < at' f j) : smallest f = s := by
  obtain ⟨b1, b2, b3⟩ := smallest_spec (f := f) (by omega)
  rcases Nat.lt_trichotomy (smallest f) s with h | h | h
  · exact absurd (lt_le (h3 _ h) (b2 s hs)) Rat.lt_irrefl
  · exact h
  · exact absurd (lt_le (b3 _ h) (h2 _ b1)) Rat.lt_irrefl

theorem best_iter {F : Pt → Rat} {n : Nat} {tr : List Pt} {st : St} (h : Best F n tr st) :
    Best F n (tr ++ (evalWith F (iter n st)).2) (evalWith F (iter n st)).1 := by
  have hl : 0 < st.f.length := by rw [h.lenF]; omega
  obtain ⟨a1, a2, a3⟩ := smallest_spec hl
  obtain ⟨g1, g2⟩ := largest_spec hl
  obtain ⟨s1, s2⟩ := second_spec (vg := largest st.f) a1
  rw [iter_eval]
  simp only
  have hvs' : smallest st.f < n + 1 := by rw [← h.lenF]; exact a1
  have hvg' : largest st.f < n + 1 := by rw [← h.lenF]; exact g1
  have hvh' : second st.f (smallest st.f) (largest st.f) < n + 1 := by rw [← h.lenF]; exact s1
  generalize hvr : comb n (centroid n st.v (largest st.f)) 1 (centroid n st.v (largest st.f)) (vat st.v (largest st.f)) = vr
  generalize centroid n st.v (largest st.f) = vm
  generalize hvge : largest st.f = vg at *
  generalize hvhe : second st.f (smallest st.f) vg = vh at *
  have hgf : vg < st.f.length := g1
  -- vh is not vg unless vs is
  have hhg : vh = vg → smallest st.f = vg := by
    intro hc
    rcases s2 with s2 | s2
    · rw [← s2]; exact hc
    · rw [hc] at s2; exact absurd s2 Rat.lt_irrefl
  by_cases hr : F vr < at' st.f (smallest st.f)
  · -- expansion
    have hnr : ¬ (F vr < at' st.f vh ∧ F vr ≥ at' st.f (smallest st.f)) := fun hc => absurd (lt_le hr hc.2) Rat.lt_irrefl
    have hacc : accept st vg (smallest st.f) vh vr (F vr) = st := by unfold accept; rw [if_neg hnr]
    rw [hacc, expand_eval, if_pos hr]
    -- the point kept
    obtain ⟨p, hp, hpr, hpe⟩ : ∃ p, (if F (comb n vm 2 vr vm) < F vr then
        replace st vg (comb n vm 2 vr vm) (F (comb n vm 2 vr vm)) else replace st vg vr (F vr)) = replace st vg p (F p) ∧
        F p ≤ F vr ∧ F p ≤ F (comb n vm 2 vr vm) := by
      by_cases hc : F (comb n vm 2 vr vm) < F vr
      · exact ⟨comb n vm 2 vr vm, by rw [if_pos hc], Rat.le_of_lt hc, Rat.le_refl⟩
      · exact ⟨vr, by rw [if_neg hc], Rat.le_refl, Rat.not_lt.1 hc⟩
    simp only [hp]
    have hb : Best F n (tr ++ [vr, comb n vm 2 vr vm]) (replace st vg p (F p)) := by
      refine best_replace h vg hvg' p ?_ _ ?_
      · intro hc
        rw [hc] at hr
        exact Rat.le_of_lt (le_lt hpr hr)
      · intro q hq
        simp only [List.mem_cons, List.not_mem_nil, or_false] at hq
        rcases hq with rfl | rfl
        · exact .inl hpr
        · exact .inl hpe
    have e2 : tr ++ vr :: ([comb n vm 2 vr vm] ++ (evalWith F (contract n (replace st vg p (F p)) vg (smallest st.f) vh vm vr (F vr))).2) =
        (tr ++ [vr, comb n vm 2 vr vm]) ++ (evalWith F (contract n (replace st vg p (F p)) vg (smallest st.f) vh vm vr (F vr))).2 := by
      simp
    rw [e2, contract_eval]
    by_cases hc : F vr ≥ at' (replace st vg p (F p)).f vh
    · rw [if_pos hc]
      -- only when vh = vg = vs
      have hvv : vh = vg := by
        refine Classical.byContradiction fun hne => ?_
        rw [replace_at _ _ _ _ _ hgf, if_neg hne] at hc
        have := a2 vh s1
        exact absurd (lt_le hr (Rat.le_trans this hc)) Rat.lt_irrefl
      have hsg := hhg hvv
      have hsm : smallest (replace st vg p (F p)).f = vg := by
        refine smallest_unique (by rw [(replace_len ..).2]; exact hgf) ?_ ?_
        · intro j hj
          rw [(replace_len ..).2] at hj
          rw [replace_at _ _ _ _ _ hgf, replace_at _ _ _ _ _ hgf, if_pos rfl]
          split
          · exact Rat.le_refl
          · exact Rat.le_trans (Rat.le_of_lt (le_lt hpr hr)) (a2 j hj)
        · intro j hj
          rw [replace_at _ _ _ _ _ hgf, replace_at _ _ _ _ _ hgf, if_pos rfl, if_neg (by omega)]
          exact le_lt hpr (lt_le hr (a2 j (by omega)))
      by_cases hfc : F (contractPt n (replace st vg p (F p)) vg vm vr (F vr)) < at' (replace st vg p (F p)).f vg
      · rw [if_pos hfc]
        refine best_replace hb vg hvg' _ (fun _ => Rat.le_of_lt hfc) _ ?_
        intro q hq
        simp only [List.mem_cons, List.not_mem_nil, or_false] at hq
        subst hq
        exact .inl Rat.le_refl
      · rw [if_neg hfc]
        have := best_shrink hb vg vh hvg' hvh' [contractPt n (replace st vg p (F p)) vg vm vr (F vr)] (by
          intro q hq
          simp only [List.mem_cons, List.not_mem_nil, or_false] at hq
          subst hq
          rw [hsm]
          exact Rat.not_lt.1 hfc)
        rw [hsm] at this
        rw [hsg]
        exact this
    · rw [if_neg hc, List.append_nil]
      exact hb
  · have hr' : at' st.f (smallest st.f) ≤ F vr := Rat.not_lt.1 hr
    by_cases hac : F vr < at' st.f vh
    · -- reflection accepted
      have hacc : accept st vg (smallest st.f) vh vr (F vr) = replace st vg vr (F vr) := by
        unfold accept; rw [if_pos ⟨hac, hr'⟩]
      have hsg : smallest st.f ≠ vg := by
        intro hc
        have h1 := g2 vh s1
        rw [hc] at hr'
        exact absurd (lt_le hac (Rat.le_trans h1 hr')) Rat.lt_irrefl
      have hhg' : vh ≠ vg := fun hc => hsg (hhg hc)
      have hex : ¬ F vr < at' (replace st vg vr (F vr)).f (smallest st.f) := by
        rw [replace_at _ _ _ _ _ hgf, if_neg hsg]; exact hr
      have hct : ¬ F vr ≥ at' (replace st vg vr (F vr)).f vh := by
        rw [replace_at _ _ _ _ _ hgf, if_neg hhg']
        exact fun hc => absurd (lt_le hac hc) Rat.lt_irrefl
      rw [hacc, expand_eval, if_neg hex]
      simp only
      rw [contract_eval, if_neg hct]
      refine best_replace h vg hvg' vr (fun hc => absurd hc hsg) _ ?_
      intro q hq
      simp only [List.append_nil, List.mem_cons, List.not_mem_nil, or_false] at hq
      subst hq
      exact .inl Rat.le_refl
    · -- contraction
      have hacc : accept st vg (smallest st.f) vh vr (F vr) = st := by
        unfold accept; rw [if_neg (fun hc => hac hc.1)]
      rw [hacc, expand_eval, if_neg hr]
      simp only
      rw [contract_eval, if_pos (Rat.not_lt.1 hac)]
      generalize contractPt n st vg vm vr (F vr) = vc
      by_cases hfc : F vc < at' st.f vg
      · rw [if_pos hfc]
        refine best_replace h vg hvg' vc (fun _ => Rat.le_of_lt hfc) _ ?_
        intro q hq
        simp only [List.nil_append, List.mem_cons, List.not_mem_nil, or_false] at hq
        rcases hq with rfl | rfl
        · by_cases hsg : smallest st.f = vg
          · rw [hsg] at hr'
            exact .inl (Rat.le_trans (Rat.le_of_lt hfc) hr')
          · exact .inr ⟨smallest st.f, hvs', hsg, hr'⟩
        · exact .inl Rat.le_refl
      · rw [if_neg hfc]
        have := best_shrink h vg vh hvg' hvh' [vr, vc] (by
          intro q hq
          simp only [List.mem_cons, List.not_mem_nil, or_false] at hq
          rcases hq with rfl | rfl
          · exact hr'
          · exact Rat.le_trans (a2 vg g1) (Rat.not_lt.1 hfc))
        simpa using this

theorem best_loop {F : Pt → Rat} {n : Nat} (ftol : Rat) : ∀ (fuel itr : Nat) (tr : List Pt) (st : St), Best F n tr st →
    Best F n (tr ++ (evalWith F (loop n ftol fuel itr st)).2) (evalWith F (loop n ftol fuel itr st)).1.1
  | 0, itr, tr, st, h => by simpa [loop, eval_done] using h
  | fuel + 1, itr, tr, st, h => by
    have h1 := best_iter h
    rw [loop, eval_bind]
    simp only
    split
    · simpa [eval_done] using h1
    · have := best_loop ftol fuel (itr + 1) _ _ h1
      simpa [List.append_assoc] using this

/-- **C190.** For every function, dimension, tolerance and starting point, the value returned is the value of the function
at the point returned, and it is not larger than the value at any point at which the function was evaluated — the starting
point among them. -/
theorem C190_best (F : Pt → Rat) (n : Nat) (ftol pn qn : Rat) (maxIt : Nat) (start : Pt) (hst : start.length = n) :
    let r := evalWith F (simplex n ftol pn qn maxIt start)
    r.1.y = F r.1.sol ∧ (∀ p ∈ r.2, r.1.y ≤ F p) ∧ start ∈ r.2 ∧ r.1.sol ∈ r.2 := by
  intro r
  have h0 : Best F n (initial n pn qn start) ⟨initial n pn qn start, (initial n pn qn start).map F⟩ := by
    have hlen := initial_length n pn qn start
    have hat : ∀ j, j < n + 1 → at' ((initial n pn qn start).map F) j = F (vat (initial n pn qn start) j) := by
      intro j hj
      have : j < (initial n pn qn start).length := by omega
      simp [at', vat, List.getElem?_eq_getElem this]
    obtain ⟨a1, a2, _⟩ := smallest_spec (f := (initial n pn qn start).map F) (by simp [hlen])
    simp only [List.length_map, hlen] at a1 a2
    refine ⟨hlen, by simp [hlen], hat _ a1, ?_⟩
    intro p hp
    obtain ⟨j, hj, rfl⟩ := List.mem_iff_getElem.1 hp
    have h2 := a2 j (by omega)
    rw [hat j (by omega)] at h2
    simpa [vat, List.getElem?_eq_getElem hj] using h2
  have hb := best_loop ftol maxIt 1 _ _ h0
  have hstart : (List.range n).map (at' start) = start := by
    apply List.ext_getElem
    · simp [hst]
    · intro i h1 h2
      simp [at', List.getElem?_eq_getElem h2]
  have er : r = evalWith F (simplex n ftol pn qn maxIt start) := rfl
  unfold simplex at er
  rw [eval_bind, askAll_eval] at er
  simp only at er
  rw [eval_bind] at er
  simp only [eval_ask, eval_done] at er
  rw [er]
  refine ⟨rfl, ?_, ?_, ?_⟩
  · intro p hp
    show F _ ≤ F p
    rw [← hb.acc]
    rw [← List.append_assoc] at hp
    rcases List.mem_append.1 hp with hp | hp
    · exact hb.min p hp
    · simp only [List.mem_cons, List.not_mem_nil, or_false] at hp
      rw [hp, hb.acc]
      exact Rat.le_refl
  · refine List.mem_append_left _ ?_
    rw [initial, hstart]
    exact List.mem_cons_self ..
  · simp

/-- A run of three iterations in two dimensions. -/
example : (evalWith (fun p => at' p 0 * at' p 0 + (at' p 1 - 1) * (at' p 1 - 1)) (simplex 2 (1/100) (1/2) (1/4) 3 [1, 1])).2.length = 10 ∧
    (evalWith (fun p => at' p 0 * at' p 0 + (at' p 1 - 1) * (at' p 1 - 1)) (simplex 2 (1/100) (1/2) (1/4) 3 [1, 1])).1.y < 1 / 2 := by
  decide +kernel

end Thot.Dhs
