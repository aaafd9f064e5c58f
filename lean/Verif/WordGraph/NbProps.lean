import Verif.WordGraph.Nb

/-! # N-best lists (C62) -/

namespace Thot.WordGraph

/-! ## Termination -/

def rank (g : WG) (h : Hyp) : Nat :=
  match h.getLast? with
  | none => g.arcs.length + 1
  | some i => g.arcs.length - i

def weight (g : WG) (e : Score × Hyp) : Nat := (g.arcs.length + 1) ^ rank g e.2

def total (g : WG) (l : List (Score × Hyp)) : Nat := (l.map (weight g)).sum

theorem total_cons (g : WG) (e : Score × Hyp) (l : List (Score × Hyp)) : total g (e :: l) = weight g e + total g l := by
  simp [total]

theorem total_perm {g : WG} {l l' : List (Score × Hyp)} (h : l.Perm l') : total g l = total g l' :=
  (h.map _).sum_nat

theorem total_take (g : WG) (m : Nat) : ∀ l : List (Score × Hyp), total g (l.take m) ≤ total g l := by
  induction m with
  | zero => intro l; simp [total]
  | succ m ih =>
    intro l
    cases l with
    | nil => simp [total]
    | cons e l => rw [List.take_succ_cons, total_cons, total_cons]; have := ih l; omega

theorem total_push (g : WG) (max : Option Nat) (s : Score) (h : Hyp) (l : List (Score × Hyp)) :
    total g (nbPush max s h l) ≤ weight g (s, h) + total g l := by
  have h1 := total_perm (g := g) (mmInsert_perm s h l)
  rw [total_cons] at h1
  unfold nbPush
  cases max with
  | none => simp only; omega
  | some m => have := total_take g m (mmInsert s h l); simp only; omega

theorem total_pushAll (g : WG) (max : Option Nat) (r : List (Score × Hyp)) : ∀ l,
    total g (r.foldl (fun st x => nbPush max x.1 x.2 st) l) ≤ total g r + total g l := by
  induction r with
  | nil => intro l; simp [total]
  | cons e r ih =>
    intro l
    have h1 := ih (nbPush max e.1 e.2 l)
    have h2 : total g (nbPush max e.1 e.2 l) ≤ weight g e + total g l := total_push g max e.1 e.2 l
    rw [List.foldl_cons, total_cons]
    omega

theorem total_le {g : WG} {r : List (Score × Hyp)} {c : Nat} (h : ∀ e ∈ r, weight g e ≤ c) : total g r ≤ r.length * c := by
  induction r with
  | nil => simp [total]
  | cons e r ih =>
    have h1 := h e (List.mem_cons_self ..)
    have h2 := ih fun x hx => h x (List.mem_cons_of_mem _ hx)
    rw [total_cons, List.length_cons, Nat.succ_mul]
    omega

/-- The extensions of a hypothesis weigh less than it. -/
theorem total_expand {g : WG} (ht : Topo g) {e : Score × Hyp} {p : List (Nat × Arc)} {t : Nat} {r : List (Score × Hyp)}
    {ids : List Nat} (h1 : e.2 = p.map Prod.fst) (h2 : Path (Live g) initialState p t) (h3 : ids.Nodup)
    (h4 : ∀ i, i ∈ ids ↔ ∃ a, Live g i a ∧ a.pred = t) (h5 : r.map Prod.snd = ids.map (fun i => e.2 ++ [i])) :
    total g r < weight g e := by
  have hlt : ∀ i ∈ ids, i < g.arcs.length := fun i hi => by
    obtain ⟨a, ha, -⟩ := (h4 i).1 hi
    exact (List.getElem?_eq_some_iff.1 ha.1).1
  have hlen : r.length ≤ g.arcs.length := by
    have e1 : r.length = ids.length := by have := congrArg List.length h5; simpa using this
    have e2 := List.Nodup.length_le_of_subset (l₂ := List.range g.arcs.length) h3 (fun i hi => List.mem_range.2 (hlt i hi))
    rw [List.length_range] at e2
    omega
  have hrank : ∀ i ∈ ids, rank g (e.2 ++ [i]) < rank g e.2 := by
    intro i hi
    obtain ⟨a, ha, hp⟩ := (h4 i).1 hi
    have hil := hlt i hi
    simp only [rank, List.getLast?_append, List.getLast?_singleton, Option.some_or]
    rw [h1]
    rcases nil_or_snoc p with rfl | ⟨q, x, rfl⟩
    · simp; omega
    · obtain ⟨u, h6, h7⟩ := h2.split
      rcases h7.inv with ⟨h, -⟩ | ⟨j, b, p', h, h8, h9, h10⟩
      · cases h
      · cases h
        have hbt := h10.nil_eq
        have := ht.lt h9.1 ha.1 (by rw [hp, hbt])
        have := (List.getElem?_eq_some_iff.1 h9.1).1
        simp
        omega
  have hw : ∀ x ∈ r, weight g x ≤ (g.arcs.length + 1) ^ (rank g e.2 - 1) := by
    intro x hx
    have h6 : x.2 ∈ r.map Prod.snd := List.mem_map.2 ⟨x, hx, rfl⟩
    rw [h5] at h6
    obtain ⟨i, hi, hxi⟩ := List.mem_map.1 h6
    have := hrank i hi
    unfold weight
    rw [← hxi]
    exact Nat.pow_le_pow_right (by omega) (by omega)
  have h6 := total_le hw
  by_cases hr : r = []
  · subst hr
    simp only [total, List.map_nil, List.sum_nil, weight]
    exact Nat.pow_pos (by omega)
  · have hrk : 0 < rank g e.2 := by
      cases hids : ids with
      | nil =>
        exfalso; apply hr
        have : (r.map Prod.snd) = [] := by rw [h5, hids]; rfl
        simpa using this
      | cons i l =>
        have := hrank i (by rw [hids]; exact List.mem_cons_self ..)
        omega
    have h7 : r.length * (g.arcs.length + 1) ^ (rank g e.2 - 1) ≤ g.arcs.length * (g.arcs.length + 1) ^ (rank g e.2 - 1) :=
      Nat.mul_le_mul_right _ hlen
    have h8 : weight g e = (g.arcs.length + 1) * (g.arcs.length + 1) ^ (rank g e.2 - 1) := by
      unfold weight
      rw [Nat.mul_comm, ← Nat.pow_succ]
      congr 1; omega
    have h9 : 0 < (g.arcs.length + 1) ^ (rank g e.2 - 1) := Nat.pow_pos (by omega)
    rw [h8, Nat.succ_mul]
    omega

theorem nbLoop_rule {g : WG} {heur : List Score} {max : Option Nat} {len : Nat}
    (I : List (Score × Hyp) → List (Score × Hyp) → Prop)
    (hI : ∀ e stack compl, I (e :: stack) compl → compl.length < len → ∃ st co, nbStep g heur max e stack compl = some (st, co) ∧
      I st co ∧ total g st < total g (e :: stack)) :
    ∀ (fuel : Nat) (stack compl : List (Score × Hyp)), I stack compl → total g stack ≤ fuel →
      ∃ res st, nbLoop g heur max len fuel stack compl = some res ∧ I st res ∧ (len ≤ res.length ∨ st = []) := by
  intro fuel
  induction fuel with
  | zero =>
    intro stack compl h ht
    unfold nbLoop
    by_cases hc : compl.length ≥ len
    · rw [if_pos hc]; exact ⟨compl, stack, rfl, h, Or.inl hc⟩
    · rw [if_neg hc]
      cases stack with
      | nil => exact ⟨compl, [], rfl, h, Or.inr rfl⟩
      | cons e l =>
        obtain ⟨st, co, -, -, h3⟩ := hI e l compl h (by omega)
        omega
  | succ fuel ih =>
    intro stack compl h ht
    unfold nbLoop
    by_cases hc : compl.length ≥ len
    · rw [if_pos hc]; exact ⟨compl, stack, rfl, h, Or.inl hc⟩
    · rw [if_neg hc]
      cases stack with
      | nil => exact ⟨compl, [], rfl, h, Or.inr rfl⟩
      | cons e l =>
        obtain ⟨st, co, h1, h2, h3⟩ := hI e l compl h (by omega)
        obtain ⟨res, st', h4, h5⟩ := ih st co h2 (by omega)
        refine ⟨res, st', ?_, h5⟩
        simp only [h1]
        exact h4

/-! ## Soundness -/

structure SInv (g : WG) (heur : List Score) (len : Nat) (stack compl : List (Score × Hyp)) : Prop where
  hok : ∀ e ∈ stack, HOk g heur e
  cok : ∀ e ∈ compl, COk g e
  ds : Desc stack
  dc : Desc compl
  len : compl.length ≤ len
  as : stack.Pairwise Apart
  ac : compl.Pairwise Apart
  ax : ∀ x ∈ stack, ∀ y ∈ compl, Apart x y

theorem pushAll_apart (max : Option Nat) (r : List (Score × Hyp)) : ∀ l, (r ++ l).Pairwise Apart →
    (r.foldl (fun st x => nbPush max x.1 x.2 st) l).Pairwise Apart := by
  induction r with
  | nil => intro l h; exact h
  | cons e r ih =>
    intro l h
    rw [List.foldl_cons]
    apply ih
    have h1 : (r ++ mmInsert e.1 e.2 l).Pairwise Apart := by
      refine List.Perm.pairwise ?_ h (fun h => h.symm)
      exact (List.perm_middle.symm.trans ((mmInsert_perm e.1 e.2 l).symm.append_left r))
    unfold nbPush
    cases max with
    | none => exact h1
    | some m => exact h1.sublist ((List.Sublist.refl r).append (List.take_sublist ..))

theorem prefix_trans_snoc {h l : List Nat} {i : Nat} (h1 : h ++ [i] <+: l) : h <+: l := by
  obtain ⟨m, hm⟩ := h1
  exact ⟨[i] ++ m, by rw [← hm]; simp⟩

theorem SInv.step {g : WG} (ht : Topo g) (hw : WF g) {heur : List Score} (hl : heur.length = g.states.length) {max : Option Nat}
    {len : Nat} {e : Score × Hyp} {stack compl : List (Score × Hyp)} (h : SInv g heur len (e :: stack) compl)
    (hc : compl.length < len) : ∃ st co, nbStep g heur max e stack compl = some (st, co) ∧ SInv g heur len st co ∧
      total g st < total g (e :: stack) := by
  have he := h.hok e (List.mem_cons_self ..)
  obtain ⟨hds1, hds2⟩ := List.pairwise_cons.1 h.ds
  obtain ⟨has1, has2⟩ := List.pairwise_cons.1 h.as
  rcases nbStep_ok hw hl max he stack compl with ⟨c, h1, h2, -, h3⟩ | ⟨p, t, r, ids, h1, h2, h3, h4, h5, h6, h7, h8⟩
  · refine ⟨_, _, h3, ?_, ?_⟩
    · refine ⟨fun x hx => h.hok x (List.mem_cons_of_mem _ hx), ?_, hds2, mmInsert_desc _ _ _ h.dc, ?_, has2, ?_, ?_⟩
      · intro x hx
        rcases List.mem_cons.1 ((mmInsert_perm _ _ _).mem_iff.1 hx) with rfl | hx
        · exact h1
        · exact h.cok x hx
      · rw [(mmInsert_perm _ _ _).length_eq]; exact hc
      · refine List.Perm.pairwise (mmInsert_perm _ _ _).symm ?_ (fun h => h.symm)
        refine List.pairwise_cons.2 ⟨?_, h.ac⟩
        intro y hy
        have := h.ax e (List.mem_cons_self ..) y hy
        unfold Apart at this ⊢
        simp only [h2]; exact this
      · intro x hx y hy
        rcases List.mem_cons.1 ((mmInsert_perm _ _ _).mem_iff.1 hy) with rfl | hy
        · have := (has1 x hx).symm
          unfold Apart at this ⊢
          simp only [h2]; exact this
        · exact h.ax x (List.mem_cons_of_mem _ hx) y hy
    · rw [total_cons]
      have : 0 < weight g e := Nat.pow_pos (by omega)
      omega
  · have hext : ∀ x ∈ r, ∃ i ∈ ids, x.2 = e.2 ++ [i] := by
      intro x hx
      have : x.2 ∈ r.map Prod.snd := List.mem_map.2 ⟨x, hx, rfl⟩
      rw [h6] at this
      obtain ⟨i, hi, hxi⟩ := List.mem_map.1 this
      exact ⟨i, hi, hxi.symm⟩
    have hap : ∀ x ∈ r, ∀ y, Apart e y → Apart x y := by
      intro x hx y hy
      obtain ⟨i, -, hxi⟩ := hext x hx
      refine ⟨fun hp => hy.1 ?_, fun hp => ?_⟩
      · rw [hxi] at hp; exact prefix_trans_snoc hp
      · rw [hxi] at hp
        rcases prefix_concat hp with hp | hp
        · exact hy.1 ⟨[i], hp.symm⟩
        · exact hy.2 hp
    refine ⟨_, _, h8, ?_, ?_⟩
    · refine ⟨?_, h.cok, pushAll_desc _ _ _ hds2, h.dc, h.len, ?_, h.ac, ?_⟩
      · intro x hx
        rcases pushAll_mem _ _ _ x hx with hx | hx
        · exact h7 x hx
        · exact h.hok x (List.mem_cons_of_mem _ hx)
      · apply pushAll_apart
        rw [List.pairwise_append]
        refine ⟨?_, has2, fun x hx y hy => hap x hx y (has1 y hy)⟩
        have hr : (r.map Prod.snd).Pairwise fun a b => ¬ a <+: b ∧ ¬ b <+: a := by
          rw [h6, List.pairwise_map]
          refine h4.imp ?_
          intro i j hij
          constructor
          · intro hp
            rcases prefix_concat hp with hp | hp
            · exact hij (by simpa using hp)
            · have := hp.length_le; simp at this; omega
          · intro hp
            rcases prefix_concat hp with hp | hp
            · exact hij (by simpa using hp.symm)
            · have := hp.length_le; simp at this; omega
        rw [List.pairwise_map] at hr
        exact hr
      · intro x hx y hy
        rcases pushAll_mem _ _ _ x hx with hx | hx
        · exact hap x hx y (h.ax e (List.mem_cons_self ..) y hy)
        · exact h.ax x (List.mem_cons_of_mem _ hx) y hy
    · have e1 := total_pushAll g max r stack
      have e2 := total_expand ht h1 h2 h4 h5 h6
      rw [total_cons]
      omega

/-- A number of iterations that the search never exceeds. -/
def enough (g : WG) : Nat := (g.arcs.length + 1) ^ (g.arcs.length + 1)

theorem start_ok {g : WG} (ht : Topo g) (hw : WF g) (hf : FinalOk g) (hne : g.arcs ≠ []) (max : Option Nat) (len fuel : Nat) :
    ∃ heur h0, heurInfo g = some heur ∧ RInv g 0 0 heur ∧ heur[initialState]? = some h0 ∧
      nbestList g max len fuel = nbLoop g heur max len fuel (nbPush max (g.init + h0) [] []) [] ∧
      SInv g heur len (nbPush max (g.init + h0) [] []) [] ∧ total g (nbPush max (g.init + h0) [] []) ≤ enough g := by
  obtain ⟨heur, h1, h2⟩ := heurInfo_ok ht hw hf
  have hs0 : initialState < heur.length := by
    rw [h2.len]
    cases harcs : g.arcs with
    | nil => exact absurd harcs hne
    | cons a l => have := hw.pred 0 a (by rw [harcs]; rfl); exact Nat.lt_of_le_of_lt (Nat.zero_le _) this
  refine ⟨heur, heur[initialState], h1, h2, List.getElem?_eq_getElem hs0, ?_, ?_, ?_⟩
  · unfold nbestList isEmpty
    have : g.arcs.isEmpty = false := by simpa using hne
    rw [this, h1]
    simp only [Bool.false_eq_true, if_false, List.getElem?_eq_getElem hs0]
  · have hmem : ∀ e ∈ nbPush max (g.init + heur[initialState]) [] [], e = (g.init + heur[initialState], []) := by
      intro e he
      rcases nbPush_mem _ _ _ _ e he with h | h
      · exact h
      · simp at h
    refine ⟨?_, by simp, nbPush_desc _ _ _ _ List.Pairwise.nil, List.Pairwise.nil, Nat.zero_le _, ?_, List.Pairwise.nil, by simp⟩
    · intro e he
      rw [hmem e he]
      refine ⟨[], initialState, heur[initialState], rfl, .nil _, ?_, List.getElem?_eq_getElem hs0, ?_⟩
      · intro p1 p2 t h3 h4
        have : p1 = [] := (List.append_eq_nil_iff.1 h3.symm).1
        exact absurd this h4
      · simp [score, Rat.add_zero]
    · unfold nbPush
      cases max with
      | none => exact List.pairwise_singleton _ _
      | some m => exact (List.pairwise_singleton Apart _).sublist (List.take_sublist ..)
  · have := total_push g max (g.init + heur[initialState]) [] []
    have e1 : weight g (g.init + heur[initialState], []) = enough g := by simp [weight, rank, enough]
    have e2 : total g [] = 0 := rfl
    omega

/-- **C62 (soundness and termination).** On a topologically ordered graph the search for N-best
hypotheses ends (after a bounded number of iterations), whatever the maximum size of the stack.  It
returns at most `len` hypotheses, in order of decreasing score, none of them twice; each of them is a
path of arcs that have not been pruned from the initial state to the first final state it meets, and its
score is the initial score plus the scores of its arcs. -/
theorem C62_nbest_sound {g : WG} (ht : Topo g) (hw : WF g) (hf : FinalOk g) (max : Option Nat) (len fuel : Nat)
    (hfuel : enough g ≤ fuel) :
    ∃ res, nbestList g max len fuel = some res ∧ res.length ≤ len ∧ res.Pairwise (fun x y => y.1 ≤ x.1) ∧
      (res.map Prod.snd).Nodup ∧
      ∀ e ∈ res, ∃ p, e.2 = p.map Prod.fst ∧ FirstFinal g p ∧ e.1 = g.init + score own p := by
  by_cases hne : g.arcs = []
  · refine ⟨[], by simp [nbestList, isEmpty, hne], by simp, List.Pairwise.nil, by simp, by simp⟩
  · obtain ⟨heur, h0, h1, h2, h3, h4, h5, h6⟩ := start_ok ht hw hf hne max len fuel
    obtain ⟨res, st, h7, h8, -⟩ := nbLoop_rule (max := max) (SInv g heur len)
      (fun e stack compl h hc => h.step ht hw h2.len hc) fuel _ _ h5 (by omega)
    refine ⟨res, by rw [h4]; exact h7, h8.len, h8.dc, ?_, h8.cok⟩
    rw [List.nodup_iff_pairwise_ne, List.pairwise_map]
    refine h8.ac.imp ?_
    intro x y hxy heq
    exact hxy.1 (by rw [heq]; exact List.prefix_rfl)

/-! ## Completeness -/

/-- Every complete path is in the result or extends a hypothesis of the stack, and the results are
better than the paths to come. -/
structure KInv (g : WG) (stack compl : List (Score × Hyp)) : Prop where
  cover : ∀ q, FirstFinal g q → (∃ e ∈ compl, e.2 = q.map Prod.fst) ∨ ∃ e ∈ stack, e.2 <+: q.map Prod.fst
  best : ∀ q, FirstFinal g q → (∃ e ∈ compl, e.2 = q.map Prod.fst) ∨ ∀ c ∈ compl, g.init + score own q ≤ c.1

theorem FirstFinal.of_prefix {g : WG} {q p : List (Nat × Arc)} (hq : FirstFinal g q) {t : Nat} (hp : Path (Live g) initialState p t)
    (h : p.map Prod.fst <+: q.map Prod.fst) :
    ∃ q2 f, q = p ++ q2 ∧ f ∈ g.final ∧ Path (Live g) t q2 f := by
  obtain ⟨f, hf, hqp⟩ := hq.2.1
  obtain ⟨m, hm⟩ := h
  obtain ⟨q1, q2, rfl, hq1, hq2⟩ := List.map_eq_append_iff.1 hm.symm
  obtain ⟨u, h1, h2⟩ := hqp.split
  obtain ⟨rfl, rfl⟩ := hp.ids_inj (fun _ _ h => h.1) h1 hq1.symm
  exact ⟨q2, f, rfl, hf, h2⟩

/-- **C62 (completeness).** When no arc has a positive score and the stack is not limited, every such
path that is not returned scores at most as much as every returned one, and if fewer than `len` are
returned none is missing. -/
theorem C62_nbest_complete_partial {g : WG} (ht : Topo g) (hw : WF g) (hf : FinalOk g) (hn : NonPos g) (len fuel : Nat)
    (hfuel : enough g ≤ fuel) :
    ∃ res, nbestList g none len fuel = some res ∧
      ∀ q, FirstFinal g q → (g.init + score own q, q.map Prod.fst) ∈ res ∨
        (res.length = len ∧ ∀ e ∈ res, g.init + score own q ≤ e.1) := by
  by_cases hne : g.arcs = []
  · refine ⟨[], by simp [nbestList, isEmpty, hne], ?_⟩
    rintro q ⟨h1, ⟨f, -, h2⟩, -⟩
    rcases h2.inv with ⟨h, -⟩ | ⟨i, a, p', -, -, h3, -⟩
    · exact absurd h h1
    · have := h3.1; rw [hne] at this; simp at this
  · obtain ⟨heur, h0, h1, h2, h3, h4, h5, h6⟩ := start_ok ht hw hf hne none len fuel
    have hge : ∀ t q f hv, f ∈ g.final → Path (Live g) t q f → heur[t]? = some hv → score own q ≤ hv := by
      intro t q f hv hf' hq hhv
      have := h2.lo t q f hv hf' (path_from_zero.2 hq) hhv
      rwa [Rat.zero_add] at this
    have hfin : ∀ (f : Nat) (hv : Score), f ∈ g.final → heur[f]? = some hv → hv = 0 := by
      intro f hv hf' hhv
      have e1 := hge f [] f hv hf' (.nil _) hhv
      simp only [score] at e1
      rcases h2.hi f hv hhv with ⟨p, f', -, hp, he⟩ | ⟨q, u, hq, he⟩
      · have := score_nonpos hn.own (path_from_zero.1 hp); grind
      · have := score_nonpos hn.own (path_from_zero.1 hq)
        have : small ≤ 0 := by decide +kernel
        have : small < 0 := by decide +kernel
        grind
    have hstep : ∀ e stack compl, (SInv g heur len (e :: stack) compl ∧ KInv g (e :: stack) compl) → compl.length < len →
        ∃ st co, nbStep g heur none e stack compl = some (st, co) ∧ (SInv g heur len st co ∧ KInv g st co) ∧
          total g st < total g (e :: stack) := by
      rintro e stack compl ⟨hS, hK⟩ hc
      obtain ⟨st, co, hst, hS', htot⟩ := hS.step (max := none) ht hw h2.len hc
      refine ⟨st, co, hst, ⟨hS', ?_⟩, htot⟩
      have he := hS.hok e (List.mem_cons_self ..)
      obtain ⟨hds1, -⟩ := List.pairwise_cons.1 hS.ds
      rcases nbStep_ok hw h2.len none he stack compl with ⟨c, k1, k2, ⟨f, hv, k3, k4, k5⟩, k6⟩ |
          ⟨p, t, r, ids, k1, k2, k3, k4, k5, k6, k7, k8⟩
      · rw [k6] at hst; cases hst
        have hv0 := hfin f hv k3 k4
        have hc1 : c.1 = e.1 := by rw [k5, hv0]; grind
        have hcov : ∀ q, FirstFinal g q → e.2 <+: q.map Prod.fst → q.map Prod.fst = e.2 := by
          intro q hq hpre
          obtain ⟨pc, hpc1, ⟨hpc2, ⟨f', hpc3, hpc4⟩, -⟩, -⟩ := k1
          rw [k2] at hpc1
          rw [hpc1] at hpre
          obtain ⟨q2, f2, rfl, -, -⟩ := hq.of_prefix hpc4 hpre
          by_cases hq2 : q2 = []
          · subst hq2; simp [hpc1]
          · exact absurd hpc3 (hq.2.2 pc q2 f' rfl hpc2 hq2 hpc4)
        constructor
        · intro q hq
          rcases hK.cover q hq with ⟨x, hx, hxq⟩ | ⟨x, hx, hxq⟩
          · exact Or.inl ⟨x, (mmInsert_perm _ _ _).mem_iff.2 (List.mem_cons_of_mem _ hx), hxq⟩
          · rcases List.mem_cons.1 hx with rfl | hx
            · left
              exact ⟨c, (mmInsert_perm _ _ _).mem_iff.2 (List.mem_cons_self ..), by rw [k2]; exact (hcov q hq hxq).symm⟩
            · exact Or.inr ⟨x, hx, hxq⟩
        · intro q hq
          rcases hK.best q hq with ⟨x, hx, hxq⟩ | hb
          · exact Or.inl ⟨x, (mmInsert_perm _ _ _).mem_iff.2 (List.mem_cons_of_mem _ hx), hxq⟩
          · rcases hK.cover q hq with ⟨x, hx, hxq⟩ | ⟨x, hx, hxq⟩
            · exact Or.inl ⟨x, (mmInsert_perm _ _ _).mem_iff.2 (List.mem_cons_of_mem _ hx), hxq⟩
            · rcases List.mem_cons.1 hx with rfl | hx'
              · left
                exact ⟨c, (mmInsert_perm _ _ _).mem_iff.2 (List.mem_cons_self ..), by rw [k2]; exact (hcov q hq hxq).symm⟩
              · right
                intro d hd
                rcases List.mem_cons.1 ((mmInsert_perm _ _ _).mem_iff.1 hd) with rfl | hd
                · obtain ⟨px, tx, hvx, m1, m2, -, m4, m5⟩ := (hS.hok x hx).ex
                  rw [m1] at hxq
                  obtain ⟨q2, f2, rfl, m6, m7⟩ := hq.of_prefix m2 hxq
                  have := hge tx q2 f2 hvx m6 m7 m4
                  have hle := hds1 x hx'
                  simp only
                  rw [hc1, score_append]
                  grind
                · exact hb d hd
      · rw [k8] at hst; cases hst
        have hmem : ∀ x, x ∈ r.foldl (fun st x => nbPush none x.1 x.2 st) stack ↔ x ∈ r ∨ x ∈ stack := by
          intro x; rw [(pushAll_perm r stack).mem_iff, List.mem_append]
        refine ⟨?_, hK.best⟩
        intro q hq
        rcases hK.cover q hq with hx | ⟨x, hx, hxq⟩
        · exact Or.inl hx
        · right
          rcases List.mem_cons.1 hx with rfl | hx
          · have hxq' := hxq
            rw [k1] at hxq'
            obtain ⟨q2, f2, rfl, m6, m7⟩ := hq.of_prefix k2 hxq'
            rcases m7.inv with ⟨rfl, rfl⟩ | ⟨i, a, q3, rfl, m8, m9, -⟩
            · rw [List.append_nil] at hq
              exact absurd m6 (k3 hq.1)
            · have hi : i ∈ ids := (k5 i).2 ⟨a, m9, m8.symm⟩
              have : x.2 ++ [i] ∈ r.map Prod.snd := by rw [k6]; exact List.mem_map.2 ⟨i, hi, rfl⟩
              obtain ⟨y, hy, hyx⟩ := List.mem_map.1 this
              refine ⟨y, (hmem y).2 (Or.inl hy), ?_⟩
              rw [hyx, k1]
              exact ⟨q3.map Prod.fst, by simp⟩
          · exact ⟨x, (hmem x).2 (Or.inr hx), hxq⟩
    obtain ⟨res, st, h7, ⟨h8, h9⟩, h10⟩ := nbLoop_rule (max := none)
      (fun stack compl => SInv g heur len stack compl ∧ KInv g stack compl) hstep fuel _ _
      ⟨h5, ⟨fun q hq => Or.inr ⟨(g.init + h0, []), List.mem_singleton.2 rfl, List.nil_prefix⟩,
        fun q hq => Or.inr (by simp)⟩⟩ (by omega)
    refine ⟨res, by rw [h4]; exact h7, ?_⟩
    intro q hq
    have hin : (∃ e ∈ res, e.2 = q.map Prod.fst) → (g.init + score own q, q.map Prod.fst) ∈ res := by
      rintro ⟨e, he, heq⟩
      obtain ⟨p, hp1, hp2, hp3⟩ := h8.cok e he
      obtain ⟨-, ⟨f, -, hp4⟩, -⟩ := hp2
      obtain ⟨f', -, hq4⟩ := hq.2.1
      obtain ⟨rfl, -⟩ := hp4.ids_inj (fun _ _ h => h.1) hq4 (by rw [← hp1, heq])
      have : e = (g.init + score own p, p.map Prod.fst) := by rw [← hp3, ← hp1]
      rw [← this]; exact he
    rcases h9.best q hq with h | hb
    · exact Or.inl (hin h)
    · rcases h9.cover q hq with h | ⟨x, hx, -⟩
      · exact Or.inl (hin h)
      · rcases h10 with h10 | h10
        · exact Or.inr ⟨Nat.le_antisymm h8.len h10, hb⟩
        · subst h10; simp at hx

/-- **C62 (stack limit).** If the graph has no more than `m` paths from the initial state, limiting the
stack to `m` hypotheses has no effect. -/
theorem C62_nbest_limit {g : WG} (ht : Topo g) (hw : WF g) (hf : FinalOk g) (m len fuel : Nat) (hm : 0 < m)
    (all : List Hyp) (hall : ∀ p t, Path (Live g) initialState p t → p.map Prod.fst ∈ all) (hlen : all.length ≤ m) :
    nbestList g (some m) len fuel = nbestList g none len fuel := by
  by_cases hne : g.arcs = []
  · simp [nbestList, isEmpty, hne]
  · obtain ⟨heur, h0, h1, h2, h3, h4, h5, -⟩ := start_ok ht hw hf hne (some m) len fuel
    obtain ⟨heur', h0', h1', -, h3', h4', h5', -⟩ := start_ok ht hw hf hne none len fuel
    rw [h1] at h1'; cases h1'
    rw [h3] at h3'; cases h3'
    rw [h4, h4']
    have hst : nbPush (some m) (g.init + h0) [] [] = nbPush none (g.init + h0) [] [] := by
      simp only [nbPush, mmInsert]
      exact List.take_of_length_le (by simp only [List.length_singleton]; exact hm)
    rw [hst]
    have hgen : ∀ (fuel : Nat) (stack compl : List (Score × Hyp)), SInv g heur len stack compl →
        nbLoop g heur (some m) len fuel stack compl = nbLoop g heur none len fuel stack compl := by
      intro fuel
      induction fuel with
      | zero => intro stack compl h; unfold nbLoop; rfl
      | succ fuel ih =>
        intro stack compl h
        unfold nbLoop
        by_cases hc : compl.length ≥ len
        · rw [if_pos hc, if_pos hc]
        · rw [if_neg hc, if_neg hc]
          cases stack with
          | nil => rfl
          | cons e stack =>
            simp only
            obtain ⟨st, co, hst, hS, -⟩ := h.step (max := none) ht hw h2.len (by omega)
            have : nbStep g heur (some m) e stack compl = some (st, co) := by
              have he := h.hok e (List.mem_cons_self ..)
              rw [← hst]
              obtain ⟨p, t, hv, g1, g2, g3, g4, g5⟩ := he.ex
              have hls : lastState g e.2 = some t := by rw [g1]; exact lastState_path g2
              have hstle : st.length ≤ m := by
                have e1 : (st.map Prod.snd).Nodup := by
                  rw [List.nodup_iff_pairwise_ne, List.pairwise_map]
                  refine hS.as.imp ?_
                  intro x y hxy heq
                  exact hxy.1 (by rw [heq]; exact List.prefix_rfl)
                have e2 := List.Nodup.length_le_of_subset (l₂ := all) e1 (by
                  intro x hx
                  obtain ⟨y, hy, rfl⟩ := List.mem_map.1 hx
                  obtain ⟨p, t, _, k1, k2, _⟩ := (hS.hok y hy).ex
                  rw [k1]; exact hall p t k2)
                rw [List.length_map] at e2
                omega
              unfold nbStep at hst ⊢
              rw [hls] at hst ⊢
              simp only [g4] at hst ⊢
              cases hco : hypIsComplete g e.2 with
              | none => rfl
              | some b =>
                cases b with
                | true => rfl
                | false =>
                  rw [hco] at hst
                  simp only at hst ⊢
                  cases hids : arcIdsToSucc g t with
                  | none => rfl
                  | some ids =>
                    rw [hids] at hst
                    simp only at hst ⊢
                    cases hr : expand g heur (e.1 - hv) e.2 ids with
                    | none => rfl
                    | some r =>
                      rw [hr] at hst
                      simp only [Option.some.injEq, Prod.mk.injEq] at hst ⊢
                      refine ⟨?_, trivial⟩
                      apply pushAll_bound
                      rw [← (pushAll_perm r stack).length_eq, hst.1]
                      exact hstle
            rw [this, hst]
            exact ih st co hS
    exact hgen fuel _ _ h5'

/-- The full claim: the list contains the best complete paths, whatever final states they go through. -/
def C62_full : Prop :=
  ∀ g : WG, Topo g → WF g → FinalOk g → NonPos g → ∀ len fuel, enough g ≤ fuel →
    ∃ res, nbestList g none len fuel = some res ∧
      ∀ q, q ≠ [] → Complete g (Live g) q → (g.init + score own q, q.map Prod.fst) ∈ res ∨
        (res.length = len ∧ ∀ e ∈ res, g.init + score own q ≤ e.1)

/-- The full claim is false: with the arcs `0→1` and `1→2` and the final states 1 and 2, the path of two
arcs is never found, because complete hypotheses are not extended. -/
theorem C62_counterexample : ¬ C62_full := by
  intro h
  let g : WG := ⟨[⟨0, 1, -1, []⟩, ⟨1, 2, -1, []⟩], [false, false], [⟨[], [0]⟩, ⟨[0], [1]⟩, ⟨[1], []⟩], [1, 2], 0, [], [[], []]⟩
  obtain ⟨res, h1, h2⟩ := h g (topo_of (by decide +kernel)) (wf_of (by decide) (by decide) (by decide) (by decide)
    (by decide +kernel) (by decide +kernel)) (by unfold FinalOk; decide) (by unfold NonPos; decide +kernel) 2 27 (by decide)
  have he : nbestList g none 2 27 = some [(-1, [0])] := by decide +kernel
  rw [he] at h1
  cases h1
  rcases h2 [(0, ⟨0, 1, -1, []⟩), (1, ⟨1, 2, -1, []⟩)] (by decide)
    ⟨2, by decide, .cons (a := ⟨0, 1, -1, []⟩) ⟨rfl, rfl⟩ (.cons (a := ⟨1, 2, -1, []⟩) ⟨rfl, rfl⟩ (.nil _))⟩ with h3 | h3
  · simp at h3
  · simp at h3

/-- The two best hypotheses of the diamond. -/
example : nbestList exDiamond (some 10000) 2 10 = some [(-4, [0, 2]), (-5, [1, 3])] := by decide +kernel
example : hypString exDiamond [0, 2] = some ['a', ' ', 'c'] := by decide +kernel

end Thot.WordGraph
