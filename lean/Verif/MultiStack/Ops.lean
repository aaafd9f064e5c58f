import Verif.MultiStack.Lemmas
/-! Behaviour of `pop`, `removeLast`, `clear` and of arbitrary histories (helper lemmas). -/
set_option linter.unusedSectionVars false
namespace Thot.MultiStack
open MMap AMap

variable {S D : Type} [DecidableEq S]

theorem elems_setCont (ms : MS S D) (k : Nat) (stk : Stack.Stack (Nat × Hyp S D)) (r : List (Nat × (Nat × Nat)))
    (j : Nat) : elems (setCont { ms with recInfo := r } k stk) j = if j = k then stk.cont else elems ms j := by
  unfold elems setCont
  simp only [lk_put]
  split <;> rfl

/-- Removing one hypothesis of a sub-stack and the recombination entry of its state keeps consistency. -/
theorem core_remove {ms : MS S D} (hc : Core ms) (hso : SortedOk ms) {k : Nat}
    {stk stk' : Stack.Stack (Nat × Hyp S D)} (hs : lk ms.stacks k = some stk) {e : Elem S D} {A B : List (Elem S D)}
    (hA : stk.cont = A ++ e :: B) (hB : stk'.cont = A ++ B) (hm : stk'.max = stk.max) {il : Nat} {sl : Int}
    (hd : lk ms.dict e.2.2.state = some (il, sl)) :
    Core (setCont { ms with recInfo := del ms.recInfo il } k stk') ∧
    SortedOk (setCont { ms with recInfo := del ms.recInfo il } k stk') := by
  have hel : elems ms k = A ++ e :: B := by unfold elems; rw [hs]; exact hA
  have hE := elems_setCont ms k stk' (del ms.recInfo il)
  have hsub : (A ++ B).Sublist (elems ms k) := by
    rw [hel]; exact (List.Sublist.refl A).append (List.sublist_cons_self e B)
  refine ⟨⟨?_, ?_, ?_, ?_, ?_, hc.dd, hc.didx, hc.dinj, distinct_del hc.rd _, ?_⟩, ?_, ?_⟩
  · intro j s hj
    simp only [setCont, lk_put] at hj
    split at hj
    · injection hj with hj; rw [← hj, hm]; exact hc.smax k stk hs
    · exact hc.smax j s hj
  · intro j; rw [hE]; split
    · rw [hB]; exact List.Pairwise.sublist hsub (hc.desc k)
    · exact hc.desc j
  · intro j; rw [hE]; split
    · rw [hB]; exact Nat.le_trans hsub.length_le (hc.len k)
    · exact hc.len j
  · intro j x hx; rw [hE] at hx; split at hx
    · rename_i hj; rw [hB] at hx; rw [hj]; exact hc.el k x (hsub.subset hx)
    · exact hc.el j x hx
  · intro j; rw [hE]; split
    · rw [hB]; exact List.Pairwise.sublist hsub (hc.hnd k)
    · exact hc.hnd j
  · intro i j hdl hh
    have hh' : lk (del ms.recInfo il) i = some (j, hdl) := hh
    rw [lk_del hc.rd] at hh'
    split at hh'
    · cases hh'
    · rename_i hi
      obtain ⟨x, hx, hxh, sx, hsx⟩ := hc.rc i j hdl hh'
      refine ⟨x, ?_, hxh, sx, hsx⟩
      rw [hE]
      split
      · rename_i hj
        rw [hj, hel] at hx
        rw [hB]
        rcases List.mem_append.1 hx with hx | hx
        · exact List.mem_append.2 (Or.inl hx)
        · rcases List.mem_cons.1 hx with rfl | hx
          · rw [hd] at hsx; injection hsx with hsx; injection hsx with hsx _; exact absurd hsx.symm hi
          · exact List.mem_append.2 (Or.inr hx)
      · exact hx
  · simp only [setCont]; split
    · exact sorted_delSorted _ _ hso.srt
    · exact hso.srt
  · intro j
    rw [hE]
    simp only [setCont]
    by_cases hl : stk'.cont.length = 0
    · rw [if_pos hl, mem_delSorted]
      have hn := List.eq_nil_of_length_eq_zero hl
      by_cases hj : j = k
      · simp [hj, hn]
      · rw [if_neg hj, hso.mem j]; simp [hj]
    · rw [if_neg hl]
      by_cases hj : j = k
      · rw [if_pos hj, hso.mem j, hj, hel]
        constructor
        · intro _ h0; rw [h0] at hl; exact hl rfl
        · intro _ h0; have := congrArg List.length h0; simp at this
      · rw [if_neg hj]; exact hso.mem j

theorem topOf_eq (ms : MS S D) (k : Nat) : topOf ms k = (elems ms k).head? := by
  unfold topOf elems Stack.top
  cases lk ms.stacks k <;> rfl

theorem lastOf_eq (ms : MS S D) (k : Nat) : lastOf ms k = (elems ms k).getLast? := by
  unfold lastOf elems Stack.last
  cases lk ms.stacks k <;> rfl

/-- The best-first loop: the result is one of the tops or the initial value and is maximal. -/
theorem bestLoop_spec (g : Nat → Option (Elem S D)) (ks : List Nat) (hg : ∀ k ∈ ks, ∃ e, g k = some e)
    (b : Nat × Elem S D × Int) :
    ∃ r, bestLoop g ks b = some r ∧ b.2.2 ≤ r.2.2 ∧ (∀ k ∈ ks, ∀ e, g k = some e → e.1 ≤ r.2.2) ∧
      (r = b ∨ (r.1 ∈ ks ∧ g r.1 = some r.2.1 ∧ r.2.2 = r.2.1.1 ∧ b.2.2 < r.2.2)) := by
  induction ks generalizing b with
  | nil => exact ⟨b, rfl, Int.le_refl _, by simp, Or.inl rfl⟩
  | cons k ks ih =>
    obtain ⟨e, he⟩ := hg k List.mem_cons_self
    have hg' : ∀ k ∈ ks, ∃ e, g k = some e := fun j hj => hg j (List.mem_cons_of_mem _ hj)
    by_cases hgt : e.1 > b.2.2
    · obtain ⟨r, r1, r2, r3, r4⟩ := ih hg' (k, e, e.1)
      refine ⟨r, by rw [bestLoop, he]; simp only [if_pos hgt]; exact r1, by simp only at r2; omega, ?_, Or.inr ?_⟩
      · intro j hj x hx
        rcases List.mem_cons.1 hj with rfl | hj
        · rw [he] at hx; injection hx with hx; rw [← hx]; exact r2
        · exact r3 j hj x hx
      · rcases r4 with rfl | ⟨a, b', c, d⟩
        · exact ⟨List.mem_cons_self, he, rfl, hgt⟩
        · exact ⟨List.mem_cons_of_mem _ a, b', c, by simp only at d; omega⟩
    · obtain ⟨r, r1, r2, r3, r4⟩ := ih hg' b
      refine ⟨r, by rw [bestLoop, he]; simp only [if_neg hgt]; exact r1, r2, ?_, ?_⟩
      · intro j hj x hx
        rcases List.mem_cons.1 hj with rfl | hj
        · rw [he] at hx; injection hx with hx; rw [← hx]; omega
        · exact r3 j hj x hx
      · rcases r4 with rfl | ⟨a, b', c, d⟩
        · exact Or.inl rfl
        · exact Or.inr ⟨List.mem_cons_of_mem _ a, b', c, d⟩

theorem worstLoop_fst (l0 : Elem S D) (k0 : Nat) (ks : List Nat) (sc : Int) :
    (worstLoop l0 k0 ks (k0, sc)).1 = k0 := by
  induction ks generalizing sc with
  | nil => rfl
  | cons k ks ih => rw [worstLoop]; split <;> exact ih _

theorem head_mem_le {l : List (Elem S D)} (h : Desc l) {t : Elem S D} (ht : l.head? = some t) :
    ∀ x ∈ l, x.1 ≤ t.1 := by
  cases l with
  | nil => cases ht
  | cons a r =>
    simp only [List.head?_cons, Option.some.injEq] at ht
    subst ht
    intro x hx
    rcases List.mem_cons.1 hx with rfl | hx
    · exact Int.le_refl _
    · exact (List.pairwise_cons.1 h).1 x hx

theorem top_of_ne {ms : MS S D} {k : Nat} (h : elems ms k ≠ []) : ∃ e r, elems ms k = e :: r ∧ topOf ms k = some e := by
  rw [topOf_eq]
  cases he : elems ms k with
  | nil => exact absurd he h
  | cons e r => exact ⟨e, r, rfl, rfl⟩

/-- `pop` of a non-empty multi-stack. -/
theorem pop_spec {ms : MS S D} (hc : Core ms) (hso : SortedOk ms) (hne : empty ms = false) :
    ∃ e ms' k r, pop ms = some (e, ms') ∧ Core ms' ∧ SortedOk ms' ∧ ms'.max = ms.max ∧ ms'.bf = ms.bf ∧
      elems ms k = e :: r ∧ (∀ j, elems ms' j = if j = k then r else elems ms j) ∧
      (ms.bf = true → ∀ j, elems ms j ≠ [] → k ≤ j) ∧
      (ms.bf = false → ∀ j, ∀ x ∈ elems ms j, x.1 ≤ e.1) ∧
      ms'.dict = ms.dict ∧ ms'.next = ms.next ∧
      ∃ il sl, lk ms.dict e.2.2.state = some (il, sl) ∧
        ∀ i, lk ms'.recInfo i = if i = il then none else lk ms.recInfo i := by
  cases hsrt : ms.sorted with
  | nil => simp [empty, hsrt] at hne
  | cons k0 ks =>
    have hne0 : elems ms k0 ≠ [] := (hso.mem k0).1 (by rw [hsrt]; exact List.mem_cons_self)
    obtain ⟨t0, r0, ht0, htop0⟩ := top_of_ne hne0
    have hall : ∀ j ∈ ms.sorted, ∃ e, topOf ms j = some e := by
      intro j hj
      obtain ⟨e, _, _, h⟩ := top_of_ne ((hso.mem j).1 hj)
      exact ⟨e, h⟩
    -- which sub-stack is chosen
    have hsel : ∃ kb res sb, (if ms.bf then some (k0, t0, t0.1) else bestLoop (topOf ms) ms.sorted (k0, t0, t0.1))
        = some (kb, res, sb) ∧ topOf ms kb = some res ∧
        (ms.bf = true → ∀ j, elems ms j ≠ [] → kb ≤ j) ∧
        (ms.bf = false → ∀ j, ∀ x ∈ elems ms j, x.1 ≤ res.1) := by
      cases hbf : ms.bf with
      | true =>
        refine ⟨k0, t0, t0.1, rfl, htop0, ?_, fun h => Bool.noConfusion h⟩
        intro _ j hj
        have hm := (hso.mem j).2 hj
        have := hso.srt
        rw [hsrt] at hm this
        rcases List.mem_cons.1 hm with rfl | hm
        · exact Nat.le_refl _
        · exact Nat.le_of_lt ((List.pairwise_cons.1 this).1 j hm)
      | false =>
        obtain ⟨r, r1, r2, r3, r4⟩ := bestLoop_spec (topOf ms) ms.sorted hall (k0, t0, t0.1)
        obtain ⟨kb, res, sb⟩ := r
        have hh : topOf ms kb = some res ∧ sb = res.1 := by
          rcases r4 with h | ⟨_, a, b, _⟩
          · injection h with h1 h2; injection h2 with h2 h3; subst h1 h2 h3; exact ⟨htop0, rfl⟩
          · exact ⟨a, b⟩
        refine ⟨kb, res, sb, by simpa using r1, hh.1, fun h => Bool.noConfusion h, ?_⟩
        intro _ j x hx
        have hn : elems ms j ≠ [] := List.ne_nil_of_mem hx
        obtain ⟨e, _, h1, h2⟩ := top_of_ne hn
        have h3 := r3 j ((hso.mem j).2 hn) e h2
        have h4 := head_mem_le (hc.desc j) (t := e) (by rw [h1]; rfl) x hx
        simp only at h3
        rw [hh.2] at h3
        omega
    obtain ⟨kb, res, sb, s1, s2, s3, s4⟩ := hsel
    have hkb : ∃ stk r, lk ms.stacks kb = some stk ∧ stk.cont = res :: r := by
      unfold topOf Stack.top at s2
      cases hl : lk ms.stacks kb with
      | none => rw [hl] at s2; cases s2
      | some stk =>
        rw [hl] at s2
        cases hcn : stk.cont with
        | nil => simp [hcn] at s2
        | cons a r =>
          simp [hcn] at s2
          exact ⟨stk, r, rfl, by rw [hcn, s2]⟩
    obtain ⟨stk, r, hl, hcn⟩ := hkb
    have hek : elems ms kb = res :: r := by unfold elems; rw [hl]; exact hcn
    obtain ⟨⟨il, sl⟩, hdict⟩ := (hc.el kb res (by rw [hek]; exact List.mem_cons_self)).2.2.2
    have hrem := core_remove hc hso hl (e := res) (A := []) (B := r) (stk' := { stk with cont := r })
      (by simpa using hcn) rfl rfl hdict
    refine ⟨res, setCont { ms with recInfo := del ms.recInfo il } kb { stk with cont := r }, kb, r, ?_, hrem.1, hrem.2,
      rfl, rfl, hek, fun j => elems_setCont _ _ _ _ _, s3, s4, rfl, rfl, il, sl, hdict, fun i => lk_del hc.rd _ _⟩
    unfold pop
    split
    · rename_i h; rw [hsrt] at h; cases h
    · rename_i k0' ks' h
      rw [hsrt] at h; injection h with h _; subst h
      rw [htop0]
      simp only [s1]
      simp only [s2]
      unfold eraseRecInfo
      simp only [hdict, hl]
      unfold Stack.pop
      simp only [hcn]

/-- `removeLast` of a non-empty multi-stack: undefined exactly when the selected sub-stack has a single element. -/
theorem removeLast_spec {ms : MS S D} (hc : Core ms) (hso : SortedOk ms) (hne : empty ms = false) :
    ∃ k t l, elems ms k = t ++ [l] ∧
      (ms.bf = true → ∀ j, elems ms j ≠ [] → j ≤ k) ∧ (ms.bf = false → ∀ j, elems ms j ≠ [] → k ≤ j) ∧
      (t = [] → removeLast ms = none) ∧
      (t ≠ [] → ∃ ms', removeLast ms = some ms' ∧ Core ms' ∧ SortedOk ms' ∧ ms'.max = ms.max ∧ ms'.bf = ms.bf ∧
        (∀ j, elems ms' j = if j = k then t else elems ms j) ∧ ms'.dict = ms.dict ∧ ms'.next = ms.next ∧
        ∃ il sl, lk ms.dict l.2.2.state = some (il, sl) ∧
          ∀ i, lk ms'.recInfo i = if i = il then none else lk ms.recInfo i) := by
  cases hsrt : ms.sorted with
  | nil => simp [empty, hsrt] at hne
  | cons k0 ks =>
    have hlastOf : ∀ j, elems ms j ≠ [] → ∃ t l, elems ms j = t ++ [l] ∧ lastOf ms j = some l := by
      intro j hj
      rw [lastOf_eq]
      exact ⟨(elems ms j).dropLast, (elems ms j).getLast hj, (List.dropLast_concat_getLast hj).symm,
        List.getLast?_eq_some_getLast hj⟩
    have hsel : ∃ kw, (if ms.bf then some ((k0 :: ks).getLast (by simp))
           else (lastOf ms k0).map (fun l0 => (worstLoop l0 k0 (k0 :: ks) (k0, l0.1)).1)) = some kw ∧
        kw ∈ ms.sorted ∧ (ms.bf = true → ∀ j, elems ms j ≠ [] → j ≤ kw) ∧
        (ms.bf = false → ∀ j, elems ms j ≠ [] → kw ≤ j) := by
      have hp := hso.srt
      rw [hsrt] at hp
      cases hbf : ms.bf with
      | true =>
        refine ⟨(k0 :: ks).getLast (by simp), rfl, by rw [hsrt]; exact List.getLast_mem _, ?_,
          fun h => Bool.noConfusion h⟩
        intro _ j hj
        have hm := (hso.mem j).2 hj
        rw [hsrt] at hm
        rw [← List.dropLast_concat_getLast (l := k0 :: ks) (by simp)] at hm hp
        rcases List.mem_append.1 hm with hm | hm
        · exact Nat.le_of_lt ((List.pairwise_append.1 hp).2.2 j hm _ (by simp))
        · rw [List.mem_singleton.1 hm]; exact Nat.le_refl _
      | false =>
        obtain ⟨t, l, _, hl⟩ := hlastOf k0 ((hso.mem k0).1 (by rw [hsrt]; exact List.mem_cons_self))
        refine ⟨k0, ?_, by rw [hsrt]; exact List.mem_cons_self, fun h => Bool.noConfusion h, ?_⟩
        · simp only [hl]; simp [worstLoop_fst]
        · intro _ j hj
          have hm := (hso.mem j).2 hj
          rw [hsrt] at hm
          rcases List.mem_cons.1 hm with rfl | hm
          · exact Nat.le_refl _
          · exact Nat.le_of_lt ((List.pairwise_cons.1 hp).1 j hm)
    obtain ⟨kw, s1, s2, s3, s4⟩ := hsel
    obtain ⟨t, l, hel, hlast⟩ := hlastOf kw ((hso.mem kw).1 s2)
    obtain ⟨⟨il, sl⟩, hdict⟩ := (hc.el kw l (by rw [hel]; simp)).2.2.2
    obtain ⟨stk, hl, hcn⟩ : ∃ stk, lk ms.stacks kw = some stk ∧ stk.cont = t ++ [l] := by
      unfold elems at hel
      cases hl : lk ms.stacks kw with
      | none => rw [hl] at hel; simp at hel
      | some stk => rw [hl] at hel; exact ⟨stk, rfl, hel⟩
    have hrun : removeLast ms = match Stack.removeLast stk with
        | none => none
        | some stk' => some (setCont { ms with recInfo := del ms.recInfo il } kw stk') := by
      unfold removeLast
      split
      · rename_i h; rw [hsrt] at h; cases h
      · rename_i k0' ks' h
        rw [hsrt] at h; injection h with h h'; subst h h'
        simp only [s1, hlast]
        unfold eraseRecInfo
        simp only [hdict, hl]
        try (cases Stack.removeLast stk <;> rfl)
    refine ⟨kw, t, l, hel, s3, s4, ?_, ?_⟩
    · intro ht
      rw [hrun]
      unfold Stack.removeLast
      rw [hcn, ht]; rfl
    · intro ht
      have hlen : 0 < t.length := List.length_pos_iff.2 ht
      have hr : Stack.removeLast stk = some { stk with cont := t } := by
        unfold Stack.removeLast
        rw [if_neg (by rw [hcn]; simp), if_neg (by rw [hcn]; simp; exact ht), hcn]
        simp
      have hrem := core_remove hc hso hl (e := l) (A := t) (B := []) (stk' := { stk with cont := t })
        hcn (by simp) rfl hdict
      refine ⟨_, by rw [hrun, hr], hrem.1, hrem.2, rfl, rfl, fun j => elems_setCont _ _ _ _ _, rfl, rfl, il, sl, hdict,
        fun i => lk_del hc.rd _ _⟩

theorem core_clear {ms : MS S D} (hc : Core ms) : Core (clear ms) ∧ SortedOk (clear ms) := by
  have he : ∀ k, elems (clear ms) k = [] := fun _ => rfl
  refine ⟨⟨by simp [clear, lk], ?_, ?_, ?_, ?_, hc.dd, hc.didx, hc.dinj, distinct_nil, ?_⟩, List.Pairwise.nil, ?_⟩
  · intro k; rw [he]; exact List.Pairwise.nil
  · intro k; rw [he]; exact Nat.zero_le _
  · intro k e h; rw [he] at h; cases h
  · intro k; rw [he]; exact List.Pairwise.nil
  · intro i k hd h; simp [clear, lk] at h
  · intro k; rw [he]; simp [clear]

theorem core_setBf {ms : MS S D} (hc : Core ms) (hso : SortedOk ms) (b : Bool) :
    Core (setBf ms b) ∧ SortedOk (setBf ms b) :=
  ⟨core_congr hc rfl (fun k s h => hc.smax k s h) (fun _ => rfl) rfl rfl (Nat.le_refl _), hso.srt, hso.mem⟩

/-- A stack just created with bound `m`. -/
def fresh (m : Nat) (bf : Bool) : MS S D := setBf (setMaxStackSize (new []) m) bf

theorem core_fresh (m : Nat) (bf : Bool) : Core (fresh m bf : MS S D) ∧ SortedOk (fresh m bf : MS S D) := by
  have he : ∀ k, elems (fresh m bf : MS S D) k = [] := fun _ => rfl
  refine ⟨⟨?_, ?_, ?_, ?_, ?_, distinct_nil, ?_, ?_, distinct_nil, ?_⟩, List.Pairwise.nil, ?_⟩
  · intro k s h; simp [fresh, setBf, setMaxStackSize, new, lk] at h
  · intro k; rw [he]; exact List.Pairwise.nil
  · intro k; rw [he]; exact Nat.zero_le _
  · intro k e h; rw [he] at h; cases h
  · intro k; rw [he]; exact List.Pairwise.nil
  · intro st p h; simp [fresh, setBf, setMaxStackSize, new, lk] at h
  · intro a b p q h; simp [fresh, setBf, setMaxStackSize, new, lk] at h
  · intro i k hd h; simp [fresh, setBf, setMaxStackSize, new, lk] at h
  · intro k; rw [he]; simp [fresh, setBf, setMaxStackSize, new]


theorem elems_setMax (ms : MS S D) (m k : Nat) : elems (setMaxStackSize ms m) k = elems ms k := by
  have : ∀ l : List (Nat × Stack.Stack (Nat × Hyp S D)),
      lk (l.map (fun e => (e.1, Stack.setMaxStackSize e.2 m))) k = (lk l k).map (Stack.setMaxStackSize · m) := by
    intro l
    induction l with
    | nil => rfl
    | cons e r ih =>
      rw [List.map_cons, lk, lk]
      simp only
      split
      · rfl
      · exact ih
  unfold elems setMaxStackSize
  simp only [this]
  cases lk ms.stacks k <;> rfl

theorem core_setMax {ms : MS S D} (hc : Core ms) (hso : SortedOk ms) (m : Nat)
    (h : ms.max ≤ m ∨ empty ms = true) :
    Core (setMaxStackSize ms m) ∧ SortedOk (setMaxStackSize ms m) := by
  have he := elems_setMax ms m
  refine ⟨⟨?_, ?_, ?_, ?_, ?_, hc.dd, hc.didx, hc.dinj, hc.rd, ?_⟩, hso.srt, ?_⟩
  · intro k s hk
    have : ∀ l : List (Nat × Stack.Stack (Nat × Hyp S D)),
        lk (l.map (fun e => (e.1, Stack.setMaxStackSize e.2 m))) k = some s → s.max = m := by
      intro l
      induction l with
      | nil => intro h; cases h
      | cons e r ih =>
        rw [List.map_cons, lk]
        simp only
        split
        · intro h; injection h with h; rw [← h]; rfl
        · exact ih
    exact this _ hk
  · intro k; rw [he]; exact hc.desc k
  · intro k; rw [he]
    rcases h with h | h
    · exact Nat.le_trans (hc.len k) h
    · have hs : ms.sorted = [] := List.eq_nil_of_length_eq_zero (by simpa [empty] using h)
      have : elems ms k = [] := by
        apply Classical.byContradiction
        intro hn; have := (hso.mem k).2 hn; rw [hs] at this; cases this
      rw [this]; exact Nat.zero_le _
  · intro k e h'; rw [he] at h'; exact hc.el k e h'
  · intro k; rw [he]; exact hc.hnd k
  · intro i k x hh; rw [he]; exact hc.rc i k x hh
  · intro k; rw [he]; exact hso.mem k

theorem core_clearAll {ms : MS S D} : Core (clearAll ms) ∧ SortedOk (clearAll ms) := by
  have he : ∀ k, elems (clearAll ms) k = [] := fun _ => rfl
  refine ⟨⟨by simp [clearAll, clear, lk], ?_, ?_, ?_, ?_, distinct_nil, ?_, ?_, distinct_nil, ?_⟩, List.Pairwise.nil, ?_⟩
  · intro k; rw [he]; exact List.Pairwise.nil
  · intro k; rw [he]; exact Nat.zero_le _
  · intro k e h; rw [he] at h; cases h
  · intro k; rw [he]; exact List.Pairwise.nil
  · intro st p h; simp [clearAll, lk] at h
  · intro a b p q h; simp [clearAll, lk] at h
  · intro i k hd h; simp [clearAll, clear, lk] at h
  · intro k; rw [he]; simp [clearAll, clear]

theorem pop_empty {ms : MS S D} (h : empty ms = true) : pop ms = none := by
  have : ms.sorted = [] := List.eq_nil_of_length_eq_zero (by simpa [empty] using h)
  simp [pop, this]

theorem removeLast_empty {ms : MS S D} (h : empty ms = true) : removeLast ms = none := by
  have hs : ms.sorted = [] := List.eq_nil_of_length_eq_zero (by simpa [empty] using h)
  unfold removeLast
  split
  · rfl
  · rename_i h; rw [hs] at h; cases h

theorem empty_iff {ms : MS S D} (hso : SortedOk ms) : empty ms = true ↔ ∀ k, elems ms k = [] := by
  constructor
  · intro h k
    have hs : ms.sorted = [] := List.eq_nil_of_length_eq_zero (by simpa [empty] using h)
    apply Classical.byContradiction
    intro hn; have := (hso.mem k).2 hn; rw [hs] at this; cases this
  · intro h
    cases hs : ms.sorted with
    | nil => simp [empty, hs]
    | cons k ks => exact absurd (h k) ((hso.mem k).1 (by rw [hs]; exact List.mem_cons_self))

/-- Consistency of the recombination data with the retained hypotheses when the class is a function of the state. -/
structure Rec (f : S → Nat) (P : List (Hyp S D)) (ms : MS S D) : Prop where
  pf : ∀ h ∈ P, h.cls = f h.state
  inP : ∀ k, ∀ e ∈ elems ms k, e.2.2 ∈ P
  tr : ∀ k, ∀ e ∈ elems ms k, ∃ i, lk ms.dict e.2.2.state = some (i, e.1) ∧ lk ms.recInfo i = some (k, e.2.1)

/-- The dictionary holds the best score pushed for each state. -/
structure Best (P : List (Hyp S D)) (ms : MS S D) : Prop where
  none : ∀ st, lk ms.dict st = none → ∀ h ∈ P, h.state ≠ st
  some : ∀ st i sc, lk ms.dict st = some (i, sc) → (∃ h ∈ P, h.state = st ∧ h.score = sc) ∧
    ∀ h ∈ P, h.state = st → h.score ≤ sc

theorem pairwise_unique {l : List (Elem S D)} (hp : l.Pairwise (fun a b => a.2.1 ≠ b.2.1)) {x y : Elem S D}
    (hx : x ∈ l) (hy : y ∈ l) (h : x.2.1 = y.2.1) : x = y := by
  induction l with
  | nil => cases hx
  | cons z l ih =>
    obtain ⟨p1, p2⟩ := List.pairwise_cons.1 hp
    rcases List.mem_cons.1 hx with h1 | h1 <;> rcases List.mem_cons.1 hy with h2 | h2
    · rw [h1, h2]
    · rw [h1] at h; exact absurd h (p1 y h2)
    · rw [h2] at h; exact absurd h.symm (p1 x h1)
    · exact ih p2 h1 h2

/-- At most one retained hypothesis per state. -/
theorem Rec.unique {f : S → Nat} {P : List (Hyp S D)} {ms : MS S D} (hc : Core ms) (hr : Rec f P ms)
    {k1 k2 : Nat} {e1 e2 : Elem S D} (h1 : e1 ∈ elems ms k1) (h2 : e2 ∈ elems ms k2)
    (hs : e1.2.2.state = e2.2.2.state) : k1 = k2 ∧ e1 = e2 := by
  obtain ⟨i1, a1, b1⟩ := hr.tr k1 e1 h1
  obtain ⟨i2, a2, b2⟩ := hr.tr k2 e2 h2
  rw [hs, a2] at a1
  injection a1 with a1; injection a1 with a1 _
  subst a1
  rw [b2] at b1
  injection b1 with b1; injection b1 with b3 b4
  subst b3
  exact ⟨rfl, pairwise_unique (hc.hnd _) h1 h2 b4.symm⟩

/-- The recombined hypothesis is exactly the retained one with the same state. -/
theorem Rec.afterRec {f : S → Nat} {P : List (Hyp S D)} {ms : MS S D} (hc : Core ms) (hr : Rec f P ms)
    (h : Hyp S D) (hf : h.cls = f h.state) :
    afterRec ms h.cls (idxOf ms h.state) = (elems ms h.cls).filter (fun e => decide (e.2.2.state ≠ h.state)) := by
  unfold MultiStack.afterRec
  have key : ∀ e ∈ elems ms h.cls, e.2.2.state = h.state → lk ms.recInfo (idxOf ms h.state) = some (h.cls, e.2.1) := by
    intro e he hst
    obtain ⟨i, a, b⟩ := hr.tr _ e he
    rw [hst] at a
    rw [lk_dict_idx a]; exact b
  split
  · rename_i k' hd hrec
    obtain ⟨x, hx, hxh, sx, hsx⟩ := hc.rc _ k' hd hrec
    have hxs : x.2.2.state = h.state := by
      cases hd0 : lk ms.dict h.state with
      | none =>
        have := hc.didx _ _ hsx
        simp [idxOf, hd0] at this
      | some p =>
        refine hc.dinj _ _ _ _ hsx hd0 ?_
        unfold idxOf; rw [hd0]; rfl
    have hk' : k' = h.cls := by
      rw [hf, ← hxs, ← hr.pf _ (hr.inP _ x hx)]
      exact (hc.el _ x hx).2.1.symm
    rw [if_pos hk']
    apply List.filter_congr
    intro e he
    by_cases hst : e.2.2.state = h.state
    · have := key e he hst
      rw [hrec] at this
      injection this with this; injection this with _ this
      simp [hst, this]
    · have : e.2.1 ≠ hd := by
        intro hh
        have := pairwise_unique (hc.hnd _) he (by rw [← hk']; exact hx) (by rw [hh, hxh])
        rw [this] at hst; exact hst hxs
      simp [hst, this]
  · rename_i hrec
    symm
    apply List.filter_eq_self.2
    intro e he
    simp only [decide_eq_true_eq]
    intro hst
    have := key e he hst
    rw [hrec] at this; cases this

theorem idxOf_ne {ms : MS S D} (hc : Core ms) {a b : S} {i : Nat} {sc : Int} (h : lk ms.dict a = some (i, sc))
    (hab : a ≠ b) : i ≠ idxOf ms b := by
  unfold idxOf
  cases hb : lk ms.dict b with
  | none => have := hc.didx _ _ h; simp at this ⊢; omega
  | some p =>
    intro hh
    exact hab (hc.dinj _ _ _ _ h hb hh)

theorem rec_push {f : S → Nat} {P : List (Hyp S D)} {ms ms' : MS S D} (hc : Core ms) (hr : Rec f P ms)
    (h : Hyp S D) (hf : h.cls = f h.state) {ok : Bool} (ho : Outcome ms ms' h ok) : Rec f (P ++ [h]) ms' := by
  have hpf : ∀ x ∈ P ++ [h], x.cls = f x.state := by
    intro x hx
    rcases List.mem_append.1 hx with hx | hx
    · exact hr.pf x hx
    · rw [List.mem_singleton.1 hx]; exact hf
  have haf := hr.afterRec hc h hf
  -- no retained hypothesis of another class has the pushed state
  have hoth : ∀ k, k ≠ h.cls → ∀ e ∈ elems ms k, e.2.2.state ≠ h.state := by
    intro k hk e he hst
    apply hk
    rw [hf, ← hst, ← hr.pf _ (hr.inP k e he)]
    exact (hc.el k e he).2.1.symm
  cases ho with
  | worse i sc a b c d e =>
    refine ⟨hpf, ?_, ?_⟩
    · intro k x hx; rw [c] at hx; exact List.mem_append.2 (Or.inl (hr.inP k x hx))
    · intro k x hx; rw [c] at hx; obtain ⟨i, u, v⟩ := hr.tr k x hx; exact ⟨i, by rw [d]; exact u, by rw [e]; exact v⟩
  | full a b c d g e =>
    have hns : ∀ k, ∀ x ∈ elems ms k, x.2.2.state ≠ h.state := by
      intro k x hx
      by_cases hk : k = h.cls
      · subst hk
        rw [← g, haf] at hx
        simpa using (List.mem_filter.1 hx).2
      · exact hoth k hk x hx
    refine ⟨hpf, ?_, ?_⟩
    · intro k x hx; rw [b] at hx; exact List.mem_append.2 (Or.inl (hr.inP k x hx))
    · intro k x hx; rw [b] at hx; obtain ⟨i, u, v⟩ := hr.tr k x hx
      exact ⟨i, by rw [c, if_neg (hns k x hx)]; exact u, by rw [d]; exact v⟩
  | room a b c d e g =>
    -- an old hypothesis that stays
    have old : ∀ k, ∀ x ∈ elems ms k, x.2.2.state ≠ h.state →
        ∃ i, lk ms'.dict x.2.2.state = some (i, x.1) ∧ lk ms'.recInfo i = some (k, x.2.1) := by
      intro k x hx hst
      obtain ⟨i, u, v⟩ := hr.tr k x hx
      exact ⟨i, by rw [e, if_neg hst]; exact u, by rw [g, if_neg (idxOf_ne hc u hst)]; exact v⟩
    refine ⟨hpf, ?_, ?_⟩
    · intro k x hx
      by_cases hk : k = h.cls
      · subst hk
        rw [d] at hx
        rcases mem_ins.1 hx with rfl | hx
        · simp
        · exact List.mem_append.2 (Or.inl (hr.inP _ x ((afterRec_sub _ _ _).subset hx)))
      · rw [b k hk] at hx; exact List.mem_append.2 (Or.inl (hr.inP k x hx))
    · intro k x hx
      by_cases hk : k = h.cls
      · subst hk
        rw [d] at hx
        rcases mem_ins.1 hx with rfl | hx
        · exact ⟨idxOf ms h.state, by rw [e, if_pos rfl], by rw [g, if_pos rfl]⟩
        · rw [haf] at hx
          obtain ⟨h1, h2⟩ := List.mem_filter.1 hx
          exact old _ x h1 (by simpa using h2)
      · rw [b k hk] at hx; exact old k x hx (hoth k hk x hx)
  | prune t l il sl a b c d e g i j k m =>
    have hns : ∀ x ∈ elems ms h.cls, x.2.2.state ≠ h.state := by
      intro x hx
      rw [← c, haf] at hx
      simpa using (List.mem_filter.1 hx).2
    have hlin : l ∈ elems ms h.cls := by rw [d]; simp
    have hls := hns l hlin
    rw [k, if_neg hls] at i
    have hil : il ≠ idxOf ms h.state := idxOf_ne hc i hls
    have old : ∀ k, ∀ x ∈ elems ms k, x.2.2.state ≠ h.state → x ≠ l →
        ∃ i, lk ms'.dict x.2.2.state = some (i, x.1) ∧ lk ms'.recInfo i = some (k, x.2.1) := by
      intro kk x hx hst hxl
      obtain ⟨i', u, v⟩ := hr.tr kk x hx
      refine ⟨i', by rw [k, if_neg hst]; exact u, ?_⟩
      rw [m, if_neg ?_, if_neg (idxOf_ne hc u hst)]
      · exact v
      · intro hh
        rw [hh] at u
        have := hc.dinj _ _ _ _ u i rfl
        exact hxl (hr.unique hc hx hlin this).2
    have htl : ∀ x ∈ t, x ∈ elems ms h.cls ∧ x ≠ l := by
      intro x hx
      have hxe : x ∈ elems ms h.cls := by rw [d]; exact List.mem_append.2 (Or.inl hx)
      refine ⟨hxe, ?_⟩
      intro hh
      have hp := hc.hnd h.cls
      rw [d] at hp
      exact (List.pairwise_append.1 hp).2.2 x hx l (by simp) (by rw [hh])
    refine ⟨hpf, ?_, ?_⟩
    · intro kk x hx
      by_cases hk : kk = h.cls
      · subst hk
        rw [j] at hx
        rcases mem_ins.1 hx with rfl | hx
        · simp
        · exact List.mem_append.2 (Or.inl (hr.inP _ x (htl x hx).1))
      · rw [b kk hk] at hx; exact List.mem_append.2 (Or.inl (hr.inP kk x hx))
    · intro kk x hx
      by_cases hk : kk = h.cls
      · subst hk
        rw [j] at hx
        rcases mem_ins.1 hx with rfl | hx
        · refine ⟨idxOf ms h.state, by rw [k, if_pos rfl], ?_⟩
          rw [m, if_neg (Ne.symm hil), if_pos rfl]
        · exact old _ x (htl x hx).1 (hns x (htl x hx).1) (htl x hx).2
      · rw [b kk hk] at hx
        refine old kk x hx (hoth kk hk x hx) ?_
        intro hh
        rw [hh] at hx
        exact hk ((hc.el kk l hx).2.1.symm.trans (hc.el _ l hlin).2.1)

theorem best_push {P : List (Hyp S D)} {ms ms' : MS S D} (hb : Best P ms) (h : Hyp S D) {ok : Bool}
    (ho : Outcome ms ms' h ok) : Best (P ++ [h]) ms' := by
  have upd : (∀ i sc, lk ms.dict h.state = some (i, sc) → sc ≤ h.score) →
      (∀ st, lk ms'.dict st = if st = h.state then some (idxOf ms h.state, h.score) else lk ms.dict st) →
      Best (P ++ [h]) ms' := by
    intro hle hd
    constructor
    · intro st hn x hx
      rw [hd] at hn
      split at hn
      · cases hn
      · rename_i hst
        rcases List.mem_append.1 hx with hx | hx
        · exact hb.none st hn x hx
        · rw [List.mem_singleton.1 hx]; exact fun h => hst h.symm
    · intro st i sc hn
      rw [hd] at hn
      split at hn
      · rename_i hst
        injection hn with hn; injection hn with _ hn
        subst hn
        refine ⟨⟨h, by simp, hst.symm, rfl⟩, ?_⟩
        intro x hx hxs
        rcases List.mem_append.1 hx with hx | hx
        · cases hold : lk ms.dict h.state with
          | none => exact absurd (hxs.trans hst) (hb.none _ hold x hx)
          | some p =>
            obtain ⟨i', sc'⟩ := p
            have h1 := (hb.some _ _ _ hold).2 x hx (hxs.trans hst)
            have h2 := hle _ _ hold
            omega
        · rw [List.mem_singleton.1 hx]; exact Int.le_refl _
      · rename_i hst
        obtain ⟨⟨y, y1, y2, y3⟩, z⟩ := hb.some st i sc hn
        refine ⟨⟨y, List.mem_append.2 (Or.inl y1), y2, y3⟩, ?_⟩
        intro x hx hxs
        rcases List.mem_append.1 hx with hx | hx
        · exact z x hx hxs
        · rw [List.mem_singleton.1 hx] at hxs; exact absurd hxs.symm hst
  cases ho with
  | worse i sc a b c d e =>
    constructor
    · intro st hn x hx
      rw [d] at hn
      rcases List.mem_append.1 hx with hx | hx
      · exact hb.none st hn x hx
      · rw [List.mem_singleton.1 hx]; intro hh; rw [← hh, a] at hn; cases hn
    · intro st j sj hn
      rw [d] at hn
      obtain ⟨⟨y, y1, y2, y3⟩, z⟩ := hb.some st j sj hn
      refine ⟨⟨y, List.mem_append.2 (Or.inl y1), y2, y3⟩, ?_⟩
      intro x hx hxs
      rcases List.mem_append.1 hx with hx | hx
      · exact z x hx hxs
      · rw [List.mem_singleton.1 hx] at hxs ⊢
        rw [← hxs, a] at hn
        injection hn with hn; injection hn with _ hn
        omega
  | full a b c d g e => exact upd a c
  | room a b c d e g => exact upd a e
  | prune t l il sl a b c d e g i j k m => exact upd a k

/-- Removing a hypothesis keeps the recombination data consistent. -/
theorem rec_remove {f : S → Nat} {P : List (Hyp S D)} {ms ms' : MS S D} (hc : Core ms) (hr : Rec f P ms)
    {k : Nat} {e : Elem S D} {A B : List (Elem S D)} (hel : elems ms k = A ++ e :: B)
    (hE : ∀ j, elems ms' j = if j = k then A ++ B else elems ms j) (hd : ms'.dict = ms.dict)
    {il : Nat} {sl : Int} (hil : lk ms.dict e.2.2.state = some (il, sl))
    (hrec : ∀ i, lk ms'.recInfo i = if i = il then none else lk ms.recInfo i) : Rec f P ms' := by
  have hin : e ∈ elems ms k := by rw [hel]; simp
  have hsub : ∀ j, ∀ x ∈ elems ms' j, x ∈ elems ms j ∧ x ≠ e := by
    intro j x hx
    rw [hE] at hx
    split at hx
    · rename_i hj
      subst hj
      have hp := hc.hnd j
      rw [hel] at hp
      have hxe : x ∈ elems ms j := by rw [hel]; simp only [List.mem_append, List.mem_cons] at hx ⊢; grind
      refine ⟨hxe, ?_⟩
      intro hh
      obtain ⟨p1, p2, p3⟩ := List.pairwise_append.1 hp
      rcases List.mem_append.1 hx with hx | hx
      · exact p3 x hx e List.mem_cons_self (by rw [hh])
      · exact (List.pairwise_cons.1 p2).1 x hx (by rw [hh])
    · rename_i hj
      refine ⟨hx, ?_⟩
      intro hh
      rw [hh] at hx
      exact hj ((hc.el j e hx).2.1.symm.trans (hc.el k e hin).2.1)
  refine ⟨hr.pf, fun j x hx => hr.inP j x (hsub j x hx).1, ?_⟩
  intro j x hx
  obtain ⟨h1, h2⟩ := hsub j x hx
  obtain ⟨i, u, v⟩ := hr.tr j x h1
  refine ⟨i, by rw [hd]; exact u, ?_⟩
  rw [hrec, if_neg]
  · exact v
  · intro hh
    rw [hh] at u
    exact h2 (hr.unique hc h1 hin (hc.dinj _ _ _ _ u hil rfl)).2

end Thot.MultiStack
