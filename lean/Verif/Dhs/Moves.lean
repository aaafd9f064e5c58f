import Verif.Dhs.Layout
namespace Thot.Dhs

/-! ### C193: the moves are those of the Nelder–Mead method -/

/-- Specification: `b`, `w`, `s` are the best, the worst and the second worst of the vertices `0..n`. -/
structure Ranked (F : Pt → Rat) (n : Nat) (v : List Pt) (b w s : Nat) : Prop where
  bIn : b < n + 1
  wIn : w < n + 1
  sIn : s < n + 1
  best : ∀ j, j < n + 1 → F (vat v b) ≤ F (vat v j)
  worst : ∀ j, j < n + 1 → F (vat v j) ≤ F (vat v w)
  second : s ≠ w ∧ ∀ j, j < n + 1 → j ≠ w → F (vat v j) ≤ F (vat v s)

/-- Specification: `m` is the mean of the vertices other than `w`: `n` times each coordinate, plus that of `w`, is the sum
over all the vertices. -/
def IsMean (n : Nat) (v : List Pt) (w : Nat) (m : Pt) : Prop :=
  m.length = n ∧ ∀ j, j < n → (n : Rat) * at' m j + at' (vat v w) j = ((List.range (n + 1)).map (fun i => at' (vat v i) j)).sum

/-- `m` is the middle point of `p` and `q`. -/
def IsMiddle (n : Nat) (p q m : Pt) : Prop := m.length = n ∧ ∀ j, j < n → 2 * at' m j = at' p j + at' q j

/-- Only vertex `i` changes: it becomes `p`. -/
def Only (n : Nat) (v v' : List Pt) (i : Nat) (p : Pt) : Prop :=
  v'.length = n + 1 ∧ vat v' i = p ∧ ∀ j, j < n + 1 → j ≠ i → vat v' j = vat v j

/-- One step of the method: the vertices `v` become `v'` after asking for the values at `asked`. -/
def Step (F : Pt → Rat) (n : Nat) (v v' : List Pt) (asked : List Pt) : Prop :=
  ∃ b w s m r, Ranked F n v b w s ∧ IsMean n v w m ∧ IsMiddle n (vat v w) r m ∧ r.length = n ∧
    ( -- reflection
      (F (vat v b) ≤ F r ∧ F r < F (vat v s) ∧ asked = [r] ∧ Only n v v' w r) ∨
      -- expansion
      (F r < F (vat v b) ∧ ∃ e, IsMiddle n m e r ∧ e.length = n ∧ asked = [r, e] ∧ Only n v v' w (if F e < F r then e else r)) ∨
      -- contraction, from outside or from inside
      (F (vat v s) ≤ F r ∧ ∃ c, IsMiddle n m (if F r < F (vat v w) then r else vat v w) c ∧
        ((F c < F (vat v w) ∧ asked = [r, c] ∧ Only n v v' w c) ∨
          -- shrinking towards the best vertex
          (F (vat v w) ≤ F c ∧ v'.length = n + 1 ∧ (∀ j, j < n + 1 → (vat v j).length = n → IsMiddle n (vat v j) (vat v b) (vat v' j)) ∧
            vat v' b = vat v b ∧ asked = [r, c, vat v' w, vat v' s]))))

theorem at_comb {n : Nat} {a : Pt} {c : Rat} {b d : Pt} {j : Nat} (h : j < n) :
    at' (comb n a c b d) j = at' a j + c * (at' b j - at' d j) := by
  simp [comb, at', List.getElem?_range h]

theorem at_centroid {n : Nat} {v : List Pt} {vg j : Nat} (h : j < n) : at' (centroid n v vg) j =
    ((List.range (n + 1)).map (fun m => if m ≠ vg then at' (vat v m) j else 0)).sum / (n : Rat) := by
  rw [at', centroid, List.getElem?_map, List.getElem?_range h]
  rfl

theorem sum_except (g : Nat → Rat) (w : Nat) : ∀ m, ((List.range m).map (fun i => if i ≠ w then g i else 0)).sum + (if w < m then g w else 0) =
    ((List.range m).map g).sum
  | 0 => by simp; grind
  | m + 1 => by
    have ih := sum_except g w m
    rw [List.range_succ, List.map_append, List.map_append, List.sum_append, List.sum_append]
    simp only [List.map_cons, List.map_nil, List.sum_cons, List.sum_nil]
    by_cases h1 : m = w
    · subst h1
      rw [if_neg (by omega : ¬ m < m)] at ih
      rw [if_pos (by omega : m < m + 1)]
      simp only [ne_eq, not_true_eq_false, if_false]
      grind
    · by_cases h2 : w < m
      · rw [if_pos h2] at ih
        rw [if_pos (by omega : w < m + 1), if_pos h1]
        grind
      · rw [if_neg h2] at ih
        rw [if_neg (by omega : ¬ w < m + 1), if_pos h1]
        grind

theorem centroid_mean {n : Nat} (hn : 0 < n) (v : List Pt) {w : Nat} (hw : w < n + 1) : IsMean n v w (centroid n v w) := by
  refine ⟨centroid_length .., ?_⟩
  intro j hj
  have h := sum_except (fun i => at' (vat v i) j) w (n + 1)
  rw [if_pos hw] at h
  rw [at_centroid hj, ← h]
  have hn0 : (n : Rat) ≠ 0 := by
    intro hc
    have : n = 0 := by exact_mod_cast hc
    omega
  generalize ((List.range (n + 1)).map (fun m => if m ≠ w then at' (vat v m) j else 0)).sum = s
  rw [Rat.div_def, Rat.mul_comm s, ← Rat.mul_assoc, Rat.mul_inv_cancel _ hn0, Rat.one_mul]

theorem scan_second_max (f : List Rat) (vs vg : Nat) : ∀ m,
    let h := (List.range m).foldl (fun h j => if at' f j > at' f h ∧ at' f j < at' f vg then j else h) vs
    at' f vs ≤ at' f h ∧ ∀ j, j < m → at' f j < at' f vg → at' f j ≤ at' f h
  | 0 => by simp
  | m + 1 => by
    obtain ⟨h0, h1⟩ := scan_second_max f vs vg m
    rw [List.range_succ, List.foldl_append, List.foldl_cons, List.foldl_nil]
    generalize (List.range m).foldl (fun h j => if at' f j > at' f h ∧ at' f j < at' f vg then j else h) vs = h at h0 h1
    by_cases hc : at' f m > at' f h ∧ at' f m < at' f vg
    · simp only [if_pos hc]
      refine ⟨Rat.le_trans h0 (Rat.le_of_lt hc.1), ?_⟩
      intro j hj hlt
      by_cases hjm : j = m
      · rw [hjm]; exact Rat.le_refl
      · exact Rat.le_trans (h1 j (by omega) hlt) (Rat.le_of_lt hc.1)
    · simp only [if_neg hc]
      refine ⟨h0, ?_⟩
      intro j hj hlt
      by_cases hjm : j = m
      · subst hjm
        exact Rat.not_lt.1 (fun hg => hc ⟨hg, hlt⟩)
      · exact h1 j (by omega) hlt

theorem ranked {F : Pt → Rat} {n : Nat} (hn : 0 < n) {st : St} (h : Accurate F n st)
    (hd : ∀ i j, i < n + 1 → j < n + 1 → F (vat st.v i) = F (vat st.v j) → i = j) :
    Ranked F n st.v (smallest st.f) (largest st.f) (second st.f (smallest st.f) (largest st.f)) := by
  have hl : 0 < st.f.length := by rw [h.lenF]; omega
  obtain ⟨s1, s2, _⟩ := smallest_spec (f := st.f) hl
  obtain ⟨g1, g2⟩ := largest_spec hl
  obtain ⟨k1, k2⟩ := second_spec (vg := largest st.f) s1
  rw [h.lenF] at s1 s2 g1 g2 k1
  have hlt : ∀ j, j < n + 1 → j ≠ largest st.f → at' st.f j < at' st.f (largest st.f) := by
    intro j hj hne
    rcases Rat.le_iff_lt_or_eq.1 (g2 j hj) with h' | h'
    · exact h'
    · rw [h.acc j hj, h.acc _ g1] at h'
      exact absurd (hd _ _ hj g1 h') hne
  have hsg : smallest st.f ≠ largest st.f := by
    intro hc
    have h0 := hlt (if largest st.f = 0 then 1 else 0) (by split <;> omega) (by split <;> omega)
    rw [← hc] at h0
    exact absurd (lt_le h0 (s2 _ (by split <;> omega))) Rat.lt_irrefl
  refine ⟨s1, g1, k1, ?_, ?_, ?_, ?_⟩
  · intro j hj; rw [← h.acc _ s1, ← h.acc j hj]; exact s2 j hj
  · intro j hj; rw [← h.acc _ g1, ← h.acc j hj]; exact g2 j hj
  · rcases k2 with k2 | k2
    · rw [k2]; exact hsg
    · intro hc; rw [hc] at k2; exact absurd k2 Rat.lt_irrefl
  · intro j hj hne
    rw [← h.acc j hj, ← h.acc _ k1]
    have := (scan_second_max st.f (smallest st.f) (largest st.f) st.f.length).2 j (by rw [h.lenF]; exact hj) (hlt j hj hne)
    exact this

theorem only_replace {n : Nat} {st : St} (hv : st.v.length = n + 1) {i : Nat} (hi : i < n + 1) (p : Pt) (y : Rat) :
    Only n st.v (replace st i p y).v i p := by
  refine ⟨by rw [(replace_len ..).1, hv], ?_, ?_⟩
  · rw [replace_vat _ _ _ _ _ (by rw [hv]; exact hi), if_pos rfl]
  · intro j _ hne
    rw [replace_vat _ _ _ _ _ (by rw [hv]; exact hi), if_neg hne]

/-- **C193 (full).** Every iteration is a step of the Nelder–Mead method. -/
def C193_full : Prop := ∀ (F : Pt → Rat) (n : Nat), 0 < n → ∀ st, Accurate F n st →
  Step F n st.v (evalWith F (iter n st)).1.v (evalWith F (iter n st)).2

/-- **C193 (partial: different values).** For every function, every number of dimensions and every simplex with different
values at its vertices, an iteration is a step of the Nelder–Mead method. -/
theorem C193_step_partial (F : Pt → Rat) (n : Nat) (hn : 0 < n) (st : St) (h : Accurate F n st)
    (hd : ∀ i j, i < n + 1 → j < n + 1 → F (vat st.v i) = F (vat st.v j) → i = j) :
    Step F n st.v (evalWith F (iter n st)).1.v (evalWith F (iter n st)).2 := by
  have hr := ranked hn h hd
  have hl : 0 < st.f.length := by rw [h.lenF]; omega
  rw [iter_eval]
  simp only
  refine ⟨smallest st.f, largest st.f, second st.f (smallest st.f) (largest st.f), centroid n st.v (largest st.f),
    comb n (centroid n st.v (largest st.f)) 1 (centroid n st.v (largest st.f)) (vat st.v (largest st.f)), hr,
    centroid_mean hn _ hr.wIn, ?_, comb_length .., ?_⟩
  · refine ⟨centroid_length .., ?_⟩
    intro j hj
    rw [at_comb hj]
    grind
  have hbw : smallest st.f ≠ largest st.f := by
    intro hc
    have h2 := hr.worst _ hr.sIn
    have h3 := hr.best _ hr.sIn
    have h4 : F (vat st.v (largest st.f)) = F (vat st.v (smallest st.f)) := by rw [hc]
    rw [← h4] at h3
    exact hr.second.1 (hd _ _ hr.sIn hr.wIn (Rat.le_antisymm h2 h3))
  have hvs := h.acc _ hr.bIn
  have hvg := h.acc _ hr.wIn
  have hvh := h.acc _ hr.sIn
  have hgf : largest st.f < st.f.length := by rw [h.lenF]; exact hr.wIn
  have hsne := hr.second.1
  have hvl : (comb n (centroid n st.v (largest st.f)) 1 (centroid n st.v (largest st.f)) (vat st.v (largest st.f))).length = n :=
    comb_length ..
  generalize comb n (centroid n st.v (largest st.f)) 1 (centroid n st.v (largest st.f)) (vat st.v (largest st.f)) = vr at *
  generalize centroid n st.v (largest st.f) = vm at *
  generalize largest st.f = vg at *
  generalize second st.f (smallest st.f) vg = vh at *
  generalize smallest st.f = vs at *
  by_cases hb : F vr < F (vat st.v vs)
  · -- expansion
    have hacc : accept st vg vs vh vr (F vr) = st := by
      unfold accept
      rw [if_neg (fun hc => by rw [hvs] at hc; exact absurd (lt_le hb hc.2) Rat.lt_irrefl)]
    rw [hacc, expand_eval, if_pos (by rw [hvs]; exact hb)]
    simp only
    obtain ⟨p, hp, hp'⟩ : ∃ p, (if F (comb n vm 2 vr vm) < F vr then
        replace st vg (comb n vm 2 vr vm) (F (comb n vm 2 vr vm)) else replace st vg vr (F vr)) = replace st vg p (F p) ∧
        p = (if F (comb n vm 2 vr vm) < F vr then comb n vm 2 vr vm else vr) := by
      by_cases hc : F (comb n vm 2 vr vm) < F vr
      · exact ⟨comb n vm 2 vr vm, by rw [if_pos hc], by rw [if_pos hc]⟩
      · exact ⟨vr, by rw [if_neg hc], by rw [if_neg hc]⟩
    have hct : ¬ F vr ≥ at' (replace st vg p (F p)).f vh := by
      rw [replace_at _ _ _ _ _ hgf, if_neg hsne, hvh]
      exact fun hc => absurd (lt_le hb (Rat.le_trans (hr.best vh hr.sIn) hc)) Rat.lt_irrefl
    rw [hp, contract_eval, if_neg hct]
    refine .inr (.inl ⟨hb, comb n vm 2 vr vm, ?_, comb_length .., rfl, ?_⟩)
    · refine ⟨hvl, ?_⟩
      intro j hj
      rw [at_comb hj]; grind
    · rw [← hp']
      exact only_replace h.lenV hr.wIn p (F p)
  · have hb' : F (vat st.v vs) ≤ F vr := Rat.not_lt.1 hb
    by_cases hs : F vr < F (vat st.v vh)
    · -- reflection
      have hacc : accept st vg vs vh vr (F vr) = replace st vg vr (F vr) := by
        unfold accept
        rw [if_pos ⟨by rw [hvh]; exact hs, by rw [hvs]; exact hb'⟩]
      have hex : ¬ F vr < at' (replace st vg vr (F vr)).f vs := by
        rw [replace_at _ _ _ _ _ hgf, if_neg hbw, hvs]; exact hb
      have hct : ¬ F vr ≥ at' (replace st vg vr (F vr)).f vh := by
        rw [replace_at _ _ _ _ _ hgf, if_neg hsne, hvh]
        exact fun hc => absurd (lt_le hs hc) Rat.lt_irrefl
      rw [hacc, expand_eval, if_neg hex]
      simp only
      rw [contract_eval, if_neg hct]
      exact .inl ⟨hb', hs, rfl, only_replace h.lenV hr.wIn vr (F vr)⟩
    · -- contraction
      have hs' : F (vat st.v vh) ≤ F vr := Rat.not_lt.1 hs
      have hacc : accept st vg vs vh vr (F vr) = st := by
        unfold accept
        rw [if_neg (fun hc => by rw [hvh] at hc; exact hs hc.1)]
      rw [hacc, expand_eval, if_neg (by rw [hvs]; exact hb)]
      simp only
      rw [contract_eval, if_pos (by rw [hvh]; exact hs')]
      have hcm : IsMiddle n vm (if F vr < F (vat st.v vg) then vr else vat st.v vg) (contractPt n st vg vm vr (F vr)) := by
        unfold contractPt
        rw [hvg]
        split
        · refine ⟨comb_length .., ?_⟩
          intro j hj
          rw [at_comb hj]; grind
        · refine ⟨comb_length .., ?_⟩
          intro j hj
          rw [at_comb hj]; grind
      refine .inr (.inr ⟨hs', contractPt n st vg vm vr (F vr), hcm, ?_⟩)
      generalize contractPt n st vg vm vr (F vr) = vc
      by_cases hc : F vc < F (vat st.v vg)
      · rw [if_pos (by rw [hvg]; exact hc)]
        exact .inl ⟨hc, rfl, only_replace h.lenV hr.wIn vc (F vc)⟩
      · rw [if_neg (by rw [hvg]; exact hc)]
        refine .inr ⟨Rat.not_lt.1 hc, shrink_len .., ?_, shrink_vs n st.v vs hr.bIn, rfl⟩
        intro j hj hjl
        simp only
        have e : vat (shrink n st.v vs) j =
            if j ≠ vs then comb n (vat st.v vs) (1/2) (vat st.v j) (vat st.v vs) else vat st.v j := by
          rw [vat, shrink, List.getElem?_map, List.getElem?_range hj]
          rfl
        rw [e]
        split
        · refine ⟨comb_length .., ?_⟩
          intro i hi
          rw [at_comb hi]; grind
        · next hjs =>
          have : j = vs := Classical.byContradiction hjs
          subst this
          exact ⟨hjl, fun i _ => by grind⟩

/-- Two worst vertices with the same value: the program takes the best vertex for the second worst one. -/
def tieF (p : Pt) : Rat := if p = [0, 0] then 0 else if p = [1, 0] then 5 else if p = [0, 1] then 5 else 3

def tieSt : St := ⟨[[0, 0], [1, 0], [0, 1]], [0, 5, 5]⟩

theorem C193_counterexample : ¬ C193_full := by
  intro h
  have h1 := h tieF 2 (by omega) tieSt ⟨rfl, rfl, by
    intro j hj
    have : j = 0 ∨ j = 1 ∨ j = 2 := by omega
    rcases this with rfl | rfl | rfl <;> decide +kernel⟩
  have hh : (evalWith tieF (iter 2 tieSt)).2.head? = some [-1, 1] ∧ (evalWith tieF (iter 2 tieSt)).2.length = 2 := by
    decide +kernel
  obtain ⟨b, w, s, m, r, hr, -, -, -, hc⟩ := h1
  have f0 : tieF (vat tieSt.v 0) = 0 := by decide +kernel
  have f1 : tieF (vat tieSt.v 1) = 5 := by decide +kernel
  have f2 : tieF (vat tieSt.v 2) = 5 := by decide +kernel
  have f3 : tieF [-1, 1] = 3 := by decide +kernel
  have h5 : (5 : Rat) ≤ tieF (vat tieSt.v s) := by
    by_cases hw : w = 1
    · have := hr.second.2 2 (by omega) (by omega)
      rw [f2] at this; exact this
    · have := hr.second.2 1 (by omega) (fun hc => hw hc.symm)
      rw [f1] at this; exact this
  rcases hc with ⟨-, -, ha, -⟩ | ⟨hlt, e, -, -, ha, -⟩ | ⟨hle, c, -, hc⟩
  · rw [ha] at hh
    simp at hh
  · rw [ha] at hh
    have : r = [-1, 1] := by simpa using hh.1
    rw [this, f3] at hlt
    have h0 := hr.best 0 (by omega)
    rw [f0] at h0
    exact absurd (lt_le hlt h0) (by decide +kernel)
  · have : r = [-1, 1] := by
      rcases hc with ⟨-, ha, -⟩ | ⟨-, -, -, -, ha⟩
      · rw [ha] at hh; simpa using hh.1
      · rw [ha] at hh; simpa using hh.1
    rw [this, f3] at hle
    exact absurd (Rat.le_trans h5 hle) (by decide +kernel)

/-- In the simplex of the counterexample of C191 the values are different. -/
example : ∀ i j, i < 3 + 1 → j < 3 + 1 → cxF (vat cxSt.v i) = cxF (vat cxSt.v j) → i = j := by
  intro i j hi hj
  have h1 : i = 0 ∨ i = 1 ∨ i = 2 ∨ i = 3 := by omega
  have h2 : j = 0 ∨ j = 1 ∨ j = 2 ∨ j = 3 := by omega
  rcases h1 with rfl | rfl | rfl | rfl <;> rcases h2 with rfl | rfl | rfl | rfl <;> decide +kernel

end Thot.Dhs
