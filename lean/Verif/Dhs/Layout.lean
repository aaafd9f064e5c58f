import Verif.Dhs.Best
namespace Thot.Dhs

/-! ### C191: are the recorded values those of the vertices? -/

/-- Every vertex is recorded with its value. -/
structure Accurate (F : Pt → Rat) (n : Nat) (st : St) : Prop where
  lenV : st.v.length = n + 1
  lenF : st.f.length = n + 1
  acc : ∀ j, j < n + 1 → at' st.f j = F (vat st.v j)

theorem acc_replace {F : Pt → Rat} {n : Nat} {st : St} (h : Accurate F n st) (i : Nat) (p : Pt) (hi : i < n + 1) :
    Accurate F n (replace st i p (F p)) := by
  refine ⟨by rw [(replace_len ..).1, h.lenV], by rw [(replace_len ..).2, h.lenF], ?_⟩
  intro j hj
  rw [replace_at _ _ _ _ _ (by rw [h.lenF]; exact hi), replace_vat _ _ _ _ _ (by rw [h.lenV]; exact hi)]
  split
  · rfl
  · exact h.acc j hj

theorem acc_accept {F : Pt → Rat} {n : Nat} {st : St} (h : Accurate F n st) (vg vs vh : Nat) (vr : Pt) (hg : vg < n + 1) :
    Accurate F n (accept st vg vs vh vr (F vr)) := by
  unfold accept
  split
  · exact acc_replace h vg vr hg
  · exact h

theorem acc_expand {F : Pt → Rat} {n : Nat} {st : St} (h : Accurate F n st) (vg vs : Nat) (vm vr : Pt) (hg : vg < n + 1) :
    Accurate F n (evalWith F (expand n st vg vs vm vr (F vr))).1 := by
  rw [expand_eval]
  split
  · simp only
    split
    · exact acc_replace h vg _ hg
    · exact acc_replace h vg _ hg
  · exact h

theorem acc_contract {F : Pt → Rat} {n : Nat} {st : St} (h : Accurate F n st) (vg vs vh : Nat) (vm vr : Pt) (hg : vg < n + 1)
    (hk : (evalWith F (contract n st vg vs vh vm vr (F vr))).2.length ≤ 2) :
    Accurate F n (evalWith F (contract n st vg vs vh vm vr (F vr))).1 := by
  rw [contract_eval] at hk ⊢
  split
  · next h1 =>
    rw [if_pos h1] at hk
    split
    · exact acc_replace h vg _ hg
    · next h2 =>
      rw [if_neg h2] at hk
      simp at hk
  · exact h

theorem shrink_acc {F : Pt → Rat} {n : Nat} {st : St} (h : Accurate F n st) {vg vs vh : Nat} (hg : vg < n + 1) (hh : vh < n + 1)
    (hs : vs < n + 1) (hcov : ∀ j, j < n + 1 → j = vg ∨ j = vs ∨ j = vh) :
    Accurate F n ⟨shrink n st.v vs, (st.f.set vg (F (vat (shrink n st.v vs) vg))).set vh (F (vat (shrink n st.v vs) vh))⟩ := by
  refine ⟨shrink_len .., by simp [h.lenF], ?_⟩
  intro j hj
  simp only
  rw [at_set _ _ _ _ (by rw [List.length_set, h.lenF]; exact hh), at_set _ _ _ _ (by rw [h.lenF]; exact hg)]
  by_cases h1 : j = vh
  · rw [if_pos h1, h1]
  · rw [if_neg h1]
    by_cases h2 : j = vg
    · rw [if_pos h2, h2]
    · rw [if_neg h2]
      have h3 : j = vs := by
        rcases hcov j hj with hc | hc | hc
        · exact absurd hc h2
        · exact hc
        · exact absurd hc h1
      rw [h3, shrink_vs n st.v vs hs]
      exact h.acc vs hs

/-- **C191 (full).** After every iteration the recorded value of every vertex is the value of the function there. -/
def C191_full : Prop := ∀ (F : Pt → Rat) (n : Nat) (st : St), Accurate F n st → Accurate F n (evalWith F (iter n st)).1

/-- **C191 (partial: iterations without shrinking).** An iteration with at most three evaluations (no shrinking) records
the value of the function at every vertex. -/
theorem C191_noshrink_partial (F : Pt → Rat) (n : Nat) (st : St) (h : Accurate F n st)
    (hk : (evalWith F (iter n st)).2.length ≤ 3) : Accurate F n (evalWith F (iter n st)).1 := by
  have hl : 0 < st.f.length := by rw [h.lenF]; omega
  have hg : largest st.f < n + 1 := by rw [← h.lenF]; exact (largest_spec hl).1
  rw [iter_eval] at hk ⊢
  simp only [List.length_cons, List.length_append] at hk ⊢
  exact acc_contract (acc_expand (acc_accept h _ _ _ _ hg) _ _ _ _ hg) _ _ _ _ _ hg (by omega)

/-- In at most two dimensions, with values pairwise different, the best, the worst and the second worst vertices are all
the vertices. -/
theorem cover {f : List Rat} {n : Nat} (hn : n ≤ 2) (hl : f.length = n + 1)
    (hd : ∀ i j, i < n + 1 → j < n + 1 → at' f i = at' f j → i = j) : ∀ j, j < n + 1 →
    j = largest f ∨ j = smallest f ∨ j = second f (smallest f) (largest f) := by
  intro j hj
  obtain ⟨g1, g2⟩ := largest_spec (f := f) (by omega)
  obtain ⟨s1, s2, _⟩ := smallest_spec (f := f) (by omega)
  by_cases h1 : j = largest f
  · exact .inl h1
  by_cases h2 : j = smallest f
  · exact .inr (.inl h2)
  refine .inr (.inr ?_)
  rw [hl] at g1 g2 s1 s2
  -- `j` lies strictly between the other two
  have hlt : at' f j < at' f (largest f) := by
    rcases Rat.le_iff_lt_or_eq.1 (g2 j hj) with h | h
    · exact h
    · exact absurd (hd _ _ hj g1 h) h1
  have hgt : at' f (smallest f) < at' f j := by
    rcases Rat.le_iff_lt_or_eq.1 (s2 j hj) with h | h
    · exact h
    · exact absurd (hd _ _ s1 hj h).symm h2
  have hgs : largest f ≠ smallest f := by
    intro hc
    rw [hc] at hlt
    exact absurd hlt (Rat.not_lt.2 (Rat.le_of_lt hgt))
  -- the scan
  have key : ∀ m, m ≤ n + 1 →
      (List.range m).foldl (fun h i => if at' f i > at' f h ∧ at' f i < at' f (largest f) then i else h) (smallest f) =
        if j < m then j else smallest f := by
    intro m
    induction m with
    | zero => intro _; simp
    | succ m ih =>
      intro hm
      rw [List.range_succ, List.foldl_append, List.foldl_cons, List.foldl_nil, ih (by omega)]
      have hcase : m = j ∨ m = largest f ∨ m = smallest f := by omega
      rcases hcase with hm' | hm' | hm'
      · rw [if_neg (by omega : ¬ j < m), hm', if_pos ⟨hgt, hlt⟩, if_pos (by omega)]
      · rw [hm', if_neg (fun hc => absurd hc.2 Rat.lt_irrefl)]
        by_cases hjm : j < largest f
        · rw [if_pos hjm, if_pos (by omega)]
        · rw [if_neg hjm, if_neg (by omega)]
      · rw [hm']
        by_cases hjm : j < smallest f
        · rw [if_pos hjm, if_neg (fun hc => absurd hc.1 (Rat.not_lt.2 (Rat.le_of_lt hgt))), if_pos (by omega)]
        · rw [if_neg hjm, if_neg (fun hc => absurd hc.1 Rat.lt_irrefl), if_neg (by omega)]
  have := key (n + 1) (Nat.le_refl _)
  rw [if_pos hj] at this
  unfold second
  rw [hl]
  exact this.symm

/-- **C191 (partial: at most two dimensions).** With at most two free variables, an iteration that starts with pairwise
different values records the value of the function at every vertex. -/
theorem C191_small_partial (F : Pt → Rat) (n : Nat) (hn : n ≤ 2) (st : St) (h : Accurate F n st)
    (hd : ∀ i j, i < n + 1 → j < n + 1 → F (vat st.v i) = F (vat st.v j) → i = j) :
    Accurate F n (evalWith F (iter n st)).1 := by
  have hl : 0 < st.f.length := by rw [h.lenF]; omega
  obtain ⟨s1, s2, _⟩ := smallest_spec (f := st.f) hl
  have hg : largest st.f < n + 1 := by rw [← h.lenF]; exact (largest_spec hl).1
  have hs : smallest st.f < n + 1 := by rw [← h.lenF]; exact s1
  have hh : second st.f (smallest st.f) (largest st.f) < n + 1 := by rw [← h.lenF]; exact (second_spec s1).1
  have hcov := cover hn h.lenF (fun i j hi hj e => hd i j hi hj (by rw [← h.acc i hi, ← h.acc j hj]; exact e))
  have ha := acc_expand (acc_accept h (largest st.f) (smallest st.f) (second st.f (smallest st.f) (largest st.f))
    (comb n (centroid n st.v (largest st.f)) 1 (centroid n st.v (largest st.f)) (vat st.v (largest st.f))) hg)
    (largest st.f) (smallest st.f) (centroid n st.v (largest st.f))
    (comb n (centroid n st.v (largest st.f)) 1 (centroid n st.v (largest st.f)) (vat st.v (largest st.f))) hg
  rw [iter_eval]
  simp only
  rw [contract_eval]
  split
  · split
    · exact acc_replace ha _ _ hg
    · exact shrink_acc ha hg hh hs hcov
  · exact ha

/-- The iteration of the counterexample: three dimensions, four different values; after shrinking the vertex with the
second smallest value has moved and keeps its old value. -/
def cxF (p : Pt) : Rat :=
  if p = [0, 0, 0] then 0 else if p = [1, 0, 0] then 1 else if p = [0, 1, 0] then 2 else if p = [0, 0, 1] then 3 else 10

def cxSt : St := ⟨[[0, 0, 0], [1, 0, 0], [0, 1, 0], [0, 0, 1]], [0, 1, 2, 3]⟩

theorem C191_counterexample : ¬ C191_full := by
  intro h
  have h1 := h cxF 3 cxSt ⟨rfl, rfl, by
    intro j hj
    have : j = 0 ∨ j = 1 ∨ j = 2 ∨ j = 3 := by omega
    rcases this with rfl | rfl | rfl | rfl <;> decide +kernel⟩
  have h2 := h1.acc 1 (by omega)
  exact absurd h2 (by decide +kernel)

/-- The hypotheses of the two partial theorems hold in a two-dimensional simplex with different values. -/
example : Accurate (fun p => at' p 0 + 2 * at' p 1) 2 ⟨[[0, 0], [1, 0], [0, 1]], [0, 1, 2]⟩ ∧
    (evalWith (fun p => at' p 0 + 2 * at' p 1) (iter 2 ⟨[[0, 0], [1, 0], [0, 1]], [0, 1, 2]⟩)).2.length ≤ 3 := by
  refine ⟨⟨rfl, rfl, ?_⟩, by decide +kernel⟩
  intro j hj
  have : j = 0 ∨ j = 1 ∨ j = 2 := by omega
  rcases this with rfl | rfl | rfl <;> decide +kernel

/-! ### C192: variables of the command line and coordinates of the points -/

/-- `w` has the fixed values at the fixed positions and the coordinates of `x`, in order, at the free ones. -/
structure Placed (va : List (Awk.Str × Rat)) (x w : List Rat) : Prop where
  len : w.length = va.length
  fixed : ∀ i (h : i < va.length), freeVar va[i] = false → w[i]? = some va[i].2
  free : ((va.zip w).filter (fun p => freeVar p.1)).map (·.2) = x

theorem xToVarVec_fixed {a : Awk.Str × Rat} {va : List (Awk.Str × Rat)} {x : Pt} (h : ¬ freeVar a = true) :
    xToVarVec (a :: va) x = (xToVarVec va x).map (a.2 :: ·) := by
  cases x <;> simp [xToVarVec, h]

theorem xToVarVec_placed : ∀ (va : List (Awk.Str × Rat)) (x : Pt), x.length = numDims va → ∃ w, xToVarVec va x = some w ∧ Placed va x w
  | [], x, h => by
    have hx : x = [] := List.length_eq_zero_iff.1 (by simpa [numDims] using h)
    subst hx
    exact ⟨[], rfl, ⟨rfl, fun i h => by simp at h, rfl⟩⟩
  | a :: va, x, h => by
    by_cases ha : freeVar a = true
    · have h' : x.length = numDims va + 1 := by rw [h]; simp [numDims, ha]
      obtain ⟨y, x', rfl⟩ := List.exists_cons_of_length_eq_add_one h'
      obtain ⟨w, hw, hp⟩ := xToVarVec_placed va x' (by simpa using h')
      refine ⟨y :: w, by simp [xToVarVec, ha, hw], ⟨by simp [hp.len], ?_, ?_⟩⟩
      · intro i hi hf
        cases i with
        | zero => simp only [List.getElem_cons_zero] at hf; rw [ha] at hf; exact absurd hf (by simp)
        | succ i =>
          simp only [List.getElem_cons_succ] at hf ⊢
          rw [List.getElem?_cons_succ]
          exact hp.fixed i (by simpa using hi) hf
      · rw [List.zip_cons_cons, List.filter_cons_of_pos (by simpa using ha), List.map_cons, hp.free]
    · have h' : x.length = numDims va := by rw [h]; simp [numDims, ha]
      obtain ⟨w, hw, hp⟩ := xToVarVec_placed va x h'
      refine ⟨a.2 :: w, by simp [xToVarVec, ha, hw], ⟨by simp [hp.len], ?_, ?_⟩⟩
      · intro i hi hf
        cases i with
        | zero => rfl
        | succ i =>
          simp only [List.getElem_cons_succ] at hf ⊢
          rw [List.getElem?_cons_succ]
          exact hp.fixed i (by simpa using hi) hf
      · rw [List.zip_cons_cons, List.filter_cons_of_neg (by simpa using ha), hp.free]

theorem initSol_length (va : List (Awk.Str × Rat)) (iv : List Rat) (h : iv = [] ∨ iv.length = va.length) :
    (initSol va iv).length = numDims va := by
  unfold initSol
  split
  · simp
  · next hne =>
    have hl := h.resolve_left hne
    rw [List.length_map, numDims, ← List.countP_eq_length_filter]
    clear h hne
    induction va generalizing iv with
    | nil => simp
    | cons a va ih =>
      cases iv with
      | nil => simp at hl
      | cons y iv => rw [List.zip_cons_cons, List.countP_cons, List.countP_cons, ih iv (by simpa using hl)]

/-- All vertices have `n` coordinates. -/
structure Dim (n : Nat) (st : St) : Prop where
  lenV : st.v.length = n + 1
  lenF : st.f.length = n + 1
  dim : ∀ j, j < n + 1 → (vat st.v j).length = n

theorem comb_length (n : Nat) (a : Pt) (c : Rat) (b d : Pt) : (comb n a c b d).length = n := by simp [comb]

theorem centroid_length (n : Nat) (v : List Pt) (vg : Nat) : (centroid n v vg).length = n := by simp [centroid]

theorem dim_replace {n : Nat} {st : St} (h : Dim n st) (i : Nat) (p : Pt) (y : Rat) (hi : i < n + 1) (hp : p.length = n) :
    Dim n (replace st i p y) := by
  refine ⟨by rw [(replace_len ..).1, h.lenV], by rw [(replace_len ..).2, h.lenF], ?_⟩
  intro j hj
  rw [replace_vat _ _ _ _ _ (by rw [h.lenV]; exact hi)]
  split
  · exact hp
  · exact h.dim j hj

theorem shrink_dim {n : Nat} {v : List Pt} {vs : Nat} (h : ∀ j, j < n + 1 → (vat v j).length = n) :
    ∀ j, j < n + 1 → (vat (shrink n v vs) j).length = n := by
  intro j hj
  have e : (shrink n v vs)[j]? = some (if j ≠ vs then comb n (vat v vs) (1/2) (vat v j) (vat v vs) else vat v j) := by
    simp only [shrink, List.getElem?_map, List.getElem?_range hj, Option.map_some]
  rw [vat, e, Option.getD_some]
  split
  · exact comb_length ..
  · exact h j hj

theorem dim_iter {F : Pt → Rat} {n : Nat} {st : St} (h : Dim n st) :
    Dim n (evalWith F (iter n st)).1 ∧ ∀ p ∈ (evalWith F (iter n st)).2, p.length = n := by
  have hl : 0 < st.f.length := by rw [h.lenF]; omega
  obtain ⟨s1, _, _⟩ := smallest_spec (f := st.f) hl
  have hg : largest st.f < n + 1 := by rw [← h.lenF]; exact (largest_spec hl).1
  have hs : smallest st.f < n + 1 := by rw [← h.lenF]; exact s1
  have hh : second st.f (smallest st.f) (largest st.f) < n + 1 := by rw [← h.lenF]; exact (second_spec s1).1
  rw [iter_eval]
  simp only
  generalize hvr : comb n (centroid n st.v (largest st.f)) 1 (centroid n st.v (largest st.f)) (vat st.v (largest st.f)) = vr
  have hvl : vr.length = n := by rw [← hvr]; exact comb_length ..
  generalize centroid n st.v (largest st.f) = vm
  generalize largest st.f = vg at *
  generalize smallest st.f = vs at *
  generalize second st.f vs vg = vh at *
  have ha : Dim n (accept st vg vs vh vr (F vr)) := by
    unfold accept
    split
    · exact dim_replace h vg vr _ hg hvl
    · exact h
  generalize accept st vg vs vh vr (F vr) = st1 at ha
  have he : Dim n (evalWith F (expand n st1 vg vs vm vr (F vr))).1 ∧
      ∀ p ∈ (evalWith F (expand n st1 vg vs vm vr (F vr))).2, p.length = n := by
    rw [expand_eval]
    split
    · refine ⟨?_, ?_⟩
      · simp only
        split
        · exact dim_replace ha vg _ _ hg (comb_length ..)
        · exact dim_replace ha vg _ _ hg hvl
      · intro p hp
        simp only [List.mem_cons, List.not_mem_nil, or_false] at hp
        rw [hp]; exact comb_length ..
    · exact ⟨ha, fun p hp => absurd hp (by simp)⟩
  obtain ⟨he1, he2⟩ := he
  generalize evalWith F (expand n st1 vg vs vm vr (F vr)) = e at he1 he2
  have hk : Dim n (evalWith F (contract n e.1 vg vs vh vm vr (F vr))).1 ∧
      ∀ p ∈ (evalWith F (contract n e.1 vg vs vh vm vr (F vr))).2, p.length = n := by
    have hcp : (contractPt n e.1 vg vm vr (F vr)).length = n := by
      unfold contractPt
      split <;> exact comb_length ..
    rw [contract_eval]
    split
    · split
      · refine ⟨dim_replace he1 vg _ _ hg hcp, ?_⟩
        intro p hp
        simp only [List.mem_cons, List.not_mem_nil, or_false] at hp
        rw [hp]; exact hcp
      · have hsd := shrink_dim (vs := vs) he1.dim
        refine ⟨⟨shrink_len .., by simp [he1.lenF], hsd⟩, ?_⟩
        intro p hp
        simp only [List.mem_cons, List.not_mem_nil, or_false] at hp
        rcases hp with hp | hp | hp
        · rw [hp]; exact hcp
        · rw [hp]; exact hsd vg hg
        · rw [hp]; exact hsd vh hh
    · exact ⟨he1, fun p hp => absurd hp (by simp)⟩
  refine ⟨hk.1, ?_⟩
  intro p hp
  rcases List.mem_cons.1 hp with hp | hp
  · rw [hp]; exact hvl
  · rcases List.mem_append.1 hp with hp | hp
    · exact he2 p hp
    · exact hk.2 p hp

theorem dim_loop {F : Pt → Rat} {n : Nat} (ftol : Rat) : ∀ (fuel itr : Nat) (st : St), Dim n st →
    Dim n (evalWith F (loop n ftol fuel itr st)).1.1 ∧ ∀ p ∈ (evalWith F (loop n ftol fuel itr st)).2, p.length = n
  | 0, itr, st, h => by simpa [loop, eval_done] using h
  | fuel + 1, itr, st, h => by
    have h1 := dim_iter (F := F) h
    rw [loop, eval_bind]
    simp only
    split
    · simpa [eval_done] using h1
    · have ih := dim_loop (F := F) ftol fuel (itr + 1) _ h1.1
      refine ⟨ih.1, ?_⟩
      intro p hp
      rcases List.mem_append.1 hp with hp | hp
      · exact h1.2 p hp
      · exact ih.2 p hp

/-- **C192.** Whatever the function, every point for which the program prints the variables (to ask for a value or as the
result) has one coordinate per free variable, so the line printed has one number per variable: the given value at the
fixed ones and the coordinates in order at the free ones. -/
theorem C192_layout (F : Pt → Rat) (c : Cfg) :
    ∀ p, p ∈ (evalWith F c.prog).2 ∨ p = (evalWith F c.prog).1.sol → ∃ w, xToVarVec c.va p = some w ∧ Placed c.va p w := by
  have h0 : Dim (numDims c.va) ⟨initial (numDims c.va) (c.pn (numDims c.va)) (c.qn (numDims c.va)) (initSol c.va c.iv),
      (initial (numDims c.va) (c.pn (numDims c.va)) (c.qn (numDims c.va)) (initSol c.va c.iv)).map F⟩ := by
    refine ⟨initial_length .., by simp [initial_length], ?_⟩
    intro j hj
    cases j with
    | zero => simp [vat, initial]
    | succ j => simp [vat, initial, List.getElem?_range (show j < numDims c.va by omega)]
  have hb := dim_loop (F := F) c.ftol c.maxIt 1 _ h0
  have hi : ∀ p ∈ initial (numDims c.va) (c.pn (numDims c.va)) (c.qn (numDims c.va)) (initSol c.va c.iv), p.length = numDims c.va := by
    intro p hp
    obtain ⟨j, hj, rfl⟩ := List.mem_iff_getElem.1 hp
    have := h0.dim j (by rw [initial_length] at hj; exact hj)
    simpa [vat, List.getElem?_eq_getElem hj] using this
  have hl : ∀ p, p ∈ (evalWith F c.prog).2 ∨ p = (evalWith F c.prog).1.sol → p.length = numDims c.va := by
    intro p hp
    unfold Cfg.prog simplex at hp
    rw [eval_bind, askAll_eval] at hp
    simp only at hp
    rw [eval_bind] at hp
    simp only [eval_ask, eval_done] at hp
    have hsm := hb.1.dim _ (by
      have := (smallest_spec (f := (evalWith F (loop (numDims c.va) c.ftol c.maxIt 1 ⟨_, _⟩)).1.1.f) (by rw [hb.1.lenF]; omega)).1
      rw [hb.1.lenF] at this
      exact this)
    rcases hp with hp | hp
    · rcases List.mem_append.1 hp with hp | hp
      · exact hi p hp
      · rcases List.mem_append.1 hp with hp | hp
        · exact hb.2 p hp
        · simp only [List.mem_cons, List.not_mem_nil, or_false] at hp
          rw [hp]; exact hsm
    · rw [hp]; exact hsm
  exact fun p hp => xToVarVec_placed c.va p (hl p hp)

/-- **C192 (first point).** The first value asked for is at the initial values given for the free variables, or, without
initial values, at equal coordinates that sum up to one. -/
theorem C192_first (F : Pt → Rat) (c : Cfg) (hiv : c.iv = [] ∨ c.iv.length = c.va.length) :
    (evalWith F c.prog).2.head? = some (initSol c.va c.iv) ∧
    (∀ w, c.iv ≠ [] → (∀ i (h : i < c.va.length), freeVar c.va[i] = true → w[i]? = c.iv[i]?) →
      (∀ i (h : i < c.va.length), freeVar c.va[i] = false → w[i]? = some c.va[i].2) → w.length = c.va.length →
      xToVarVec c.va (initSol c.va c.iv) = some w) ∧
    (c.iv = [] → 0 < numDims c.va → (initSol c.va c.iv).sum = 1 ∧ ∀ y ∈ initSol c.va c.iv, y = 1 / (numDims c.va : Rat)) := by
  refine ⟨?_, ?_, ?_⟩
  · have hlen := initSol_length c.va c.iv hiv
    have hstart : (List.range (numDims c.va)).map (at' (initSol c.va c.iv)) = initSol c.va c.iv := by
      apply List.ext_getElem
      · simp [hlen]
      · intro i h1 h2
        simp [at', List.getElem?_eq_getElem h2]
    unfold Cfg.prog simplex
    rw [eval_bind, askAll_eval, initial, hstart]
    rfl
  · intro w hne hfree hfix hwl
    have hl := hiv.resolve_left hne
    rw [initSol, if_neg hne]
    clear hiv hne
    generalize c.va = va at *
    generalize c.iv = iv at *
    induction va generalizing iv w with
    | nil =>
      have : w = [] := List.length_eq_zero_iff.1 (by simpa using hwl)
      subst this; rfl
    | cons a va ih =>
      match iv, w, hl, hwl with
      | y :: iv, z :: w, hl, hwl =>
        have ih' := ih w (iv := iv)
          (fun i hi hf => by have := hfix (i + 1) (by simpa using hi) (by simpa using hf); simpa using this)
          (by simpa using hwl)
          (fun i hi hf => by have := hfree (i + 1) (by simpa using hi) (by simpa using hf); simpa using this) (by simpa using hl)
        by_cases ha : freeVar a = true
        · have h0 := hfree 0 (by simp) (by simpa using ha)
          simp only [List.getElem?_cons_zero, Option.some.injEq] at h0
          rw [List.zip_cons_cons, List.filter_cons_of_pos (by simpa using ha), List.map_cons, xToVarVec, if_pos ha]
          simp only
          rw [ih', h0]
          rfl
        · have h0 := hfix 0 (by simp) (by simpa using ha)
          simp only [List.getElem?_cons_zero, Option.some.injEq, List.getElem_cons_zero] at h0
          rw [List.zip_cons_cons, List.filter_cons_of_neg (by simpa using ha), xToVarVec_fixed ha, ih', h0]
          rfl
  · intro he hp
    rw [initSol, if_pos he]
    refine ⟨?_, fun y hy => (List.mem_replicate.1 hy).2⟩
    have hs : ∀ (m : Nat) (q : Rat), (List.replicate m q).sum = (m : Rat) * q := by
      intro m q
      induction m with
      | zero => simp
      | succ m ih => rw [List.replicate_succ, List.sum_cons, ih]; push_cast; grind
    rw [hs]
    have : (numDims c.va : Rat) ≠ 0 := by
      intro hc
      have : numDims c.va = 0 := by exact_mod_cast hc
      omega
    rw [Rat.div_def, Rat.one_mul]
    exact Rat.mul_inv_cancel _ this

/-- Three variables, the second one fixed at 0.5; a negative fixed value is not a free variable. -/
example : numDims [("-0".toList, 0), ("0.5".toList, 1/2), ("-0".toList, 0), ("-1".toList, -1), ("0".toList, 0)] = 2 ∧
    xToVarVec [("-0".toList, 0), ("0.5".toList, 1/2), ("-0".toList, 0), ("-1".toList, -1), ("0".toList, 0)] [3, 4] = some [3, 1/2, 4, -1, 0] := by
  decide +kernel

end Thot.Dhs
