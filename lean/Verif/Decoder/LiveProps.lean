import Verif.Decoder.RaceProps

/-! No deadlock, and every request finishes. -/

namespace Thot.Decoder

variable {M U O : Type}

/-- Some thread can make a step. -/
def Enabled (initU : M → U) (s : St M U O) : Prop := ∃ t, step initU s t ≠ none

theorem enabled_of_tstep {initU : M → U} {s : St M U O} {t : Nat} {th : Thread M U O} (ht : s.th[t]? = some th)
    (h : tstep initU s.sh t th ≠ none) : Enabled initU s := by
  refine ⟨t, ?_⟩
  unfold step
  rw [ht]
  simp only
  split
  · contradiction
  · simp

/-- A running thread can make a step unless a mutex that it needs is held. -/
theorem run_enabled {initU : M → U} {s : St M U O} {t : Nat} {th : Thread M U O} (ht : s.th[t]? = some th) (hm : th.mode = .run)
    {i : Instr M U O} {c : List (Instr M U O)} (hc : th.code = i :: c) :
    Enabled initU s ∨ (∃ m, i = .lock m ∧ s.sh.held m ≠ none) ∨ (i = .lockUser ∧ s.sh.heldU th.reg ≠ none) := by
  by_cases h : tstep initU s.sh t th = none
  · right
    unfold tstep at h
    rw [hm, hc] at h
    simp only at h
    cases i with
    | lock m =>
      left
      refine ⟨m, rfl, fun hn => ?_⟩
      simp [exec, hn] at h
    | lockUser =>
      right
      refine ⟨rfl, fun hn => ?_⟩
      simp [exec, hn] at h
    | look u => simp only [exec] at h; split at h <;> simp at h
    | wait => simp only [exec] at h; split at h <;> simp at h
    | _ => simp [exec] at h
  · exact Or.inl (enabled_of_tstep ht h)

theorem code_ne_nil_of_holds {m : Mtx} {c : List (Instr M U O)} (h : holds m c = true) : ∃ i c', c = i :: c' := by
  cases c with
  | nil => simp [holds] at h
  | cons i c' => exact ⟨i, c', rfl⟩

/-- The holder of a mutex of the last level, or of that of a user, can make a step. -/
theorem enabled_top {initU : M → U} {s : St M U O} (hi : Inv s) {m : Mtx} (hm : rank m = 3) (hh : s.sh.held m ≠ none) : Enabled initU s := by
  obtain ⟨t, ht⟩ := Option.ne_none_iff_exists'.1 hh
  obtain ⟨th, hth, h1, h2⟩ := (hi.held _ _).1 ht
  have hg := hi.good t th hth
  have hrun : th.mode = .run := by
    rcases hmode : th.mode with _ | _ | _
    · rfl
    all_goals
      obtain ⟨c, hc⟩ := hi.waiting t th hth (by simp [hmode])
      rw [hc] at hg h1
      obtain ⟨_, _, h3, h4, _⟩ := hg.1
      cases m <;> simp_all [holds, rank]
  obtain ⟨i, c, hc⟩ := code_ne_nil_of_holds h1
  rw [hc] at hg h1
  rcases run_enabled hth hrun hc with h | ⟨m', rfl, h3⟩ | ⟨rfl, h3⟩
  · exact h
  · have hne : m ≠ m' := by rintro rfl; simp [holds] at h1
    have := hg.1.2.1 m hne (by simpa [holds, Ne.symm hne] using h1)
    cases m' <;> simp_all [rank]
  · have := hg.1.2.2 m h1
    omega

theorem enabled_user {initU : M → U} {s : St M U O} (hi : Inv s) {k : Nat} (hh : s.sh.heldU k ≠ none) : Enabled initU s := by
  obtain ⟨t, ht⟩ := Option.ne_none_iff_exists'.1 hh
  obtain ⟨th, hth, h1, h2⟩ := (hi.heldU _ _).1 ht
  have hg := hi.good t th hth
  have hrun : th.mode = .run := by
    rcases hmode : th.mode with _ | _ | _
    · rfl
    all_goals
      obtain ⟨c, hc⟩ := hi.waiting t th hth (by simp [hmode])
      rw [hc] at hg h1
      have h5 := hg.1.2.2.2.2.1
      simp only [inUser] at h1
      rw [h5] at h1; simp at h1
  cases hc : th.code with
  | nil => rw [hc] at h1; simp [inUser] at h1
  | cons i c =>
    rw [hc] at hg h1
    rcases run_enabled hth hrun hc with h | ⟨m', rfl, h3⟩ | ⟨rfl, h3⟩
    · exact h
    · have h4 := hg.1.2.2.1 h1
      refine enabled_top hi (m := m') ?_ h3
      cases m' <;> simp_all [rank]
    · simp [inUser] at h1

theorem enabled_nonAtomic {initU : M → U} {s : St M U O} (hi : Inv s) (hh : s.sh.held .nonAtomic ≠ none) : Enabled initU s := by
  obtain ⟨t, ht⟩ := Option.ne_none_iff_exists'.1 hh
  obtain ⟨th, hth, h1, h2⟩ := (hi.held _ _).1 ht
  have hg := hi.good t th hth
  obtain ⟨i, c, hc⟩ := code_ne_nil_of_holds h1
  rw [hc] at hg h1
  rcases run_enabled hth (h2 rfl) hc with h | ⟨m', rfl, h3⟩ | ⟨rfl, h3⟩
  · exact h
  · have hne : Mtx.nonAtomic ≠ m' := by rintro rfl; simp [holds] at h1
    have h4 := hg.1.2.1 .nonAtomic hne (by simpa [holds, Ne.symm hne] using h1)
    refine enabled_top hi (m := m') ?_ h3
    cases m' <;> simp_all [rank]
  · exact enabled_user hi h3

theorem enabled_cnt {initU : M → U} {s : St M U O} (hi : Inv s) (hh : 0 < s.sh.cnt) : Enabled initU s := by
  have hp : 0 < s.th.countP fun th => counted th.code := by have := hi.cnt; omega
  obtain ⟨th, hmem, h1⟩ := List.countP_pos_iff.1 hp
  obtain ⟨t, hth⟩ := List.getElem?_of_mem hmem
  have hg := hi.good t th hth
  have hrun : th.mode = .run := by
    rcases hmode : th.mode with _ | _ | _
    · rfl
    all_goals
      obtain ⟨c, hc⟩ := hi.waiting t th hth (by simp [hmode])
      rw [hc] at hg h1
      have h5 := hg.1.2.2.2.2.2.1
      simp only [counted] at h1
      rw [h5] at h1; simp at h1
  cases hc : th.code with
  | nil => rw [hc] at h1; simp [counted] at h1
  | cons i c =>
    rw [hc] at hg h1
    rcases run_enabled hth hrun hc with h | ⟨m', rfl, h3⟩ | ⟨rfl, h3⟩
    · exact h
    · cases m' with
      | atomicOp =>
        have h4 := hg.1.2.2.2.1 rfl
        simp only [counted] at h1
        rw [h4] at h1; simp at h1
      | nonAtomic => exact enabled_nonAtomic hi h3
      | idxMap => exact enabled_top hi rfl h3
      | preproc => exact enabled_top hi rfl h3
    · exact enabled_user hi h3

theorem enabled_atomicOp {initU : M → U} {s : St M U O} (hi : Inv s) (hh : s.sh.held .atomicOp ≠ none) : Enabled initU s := by
  obtain ⟨t, ht⟩ := Option.ne_none_iff_exists'.1 hh
  obtain ⟨th, hth, h1, _⟩ := (hi.held _ _).1 ht
  have hg := hi.good t th hth
  obtain ⟨i, c, hc⟩ := code_ne_nil_of_holds h1
  rw [hc] at hg h1
  rcases hmode : th.mode with _ | _ | _
  · rcases run_enabled hth hmode hc with h | ⟨m', rfl, h3⟩ | ⟨rfl, h3⟩
    · exact h
    · cases m' with
      | atomicOp => simp [holds] at h1
      | nonAtomic => exact enabled_nonAtomic hi h3
      | idxMap => exact enabled_top hi rfl h3
      | preproc => exact enabled_top hi rfl h3
    · exact enabled_user hi h3
  · exact enabled_cnt hi (hi.asleep t th hth hmode)
  · by_cases hn : s.sh.held .nonAtomic = none
    · refine enabled_of_tstep hth ?_
      simp [tstep, hmode, hn]
    · exact enabled_nonAtomic hi hn

theorem enabled_of_inv {initU : M → U} {s : St M U O} (hi : Inv s) {t : Nat} {th : Thread M U O} (hth : s.th[t]? = some th)
    (hd : ¬ th.done) : Enabled initU s := by
  rcases hmode : th.mode with _ | _ | _
  · cases hc : th.code with
    | nil => exact absurd hc hd
    | cons i c =>
      rcases run_enabled hth hmode hc with h | ⟨m', rfl, h3⟩ | ⟨rfl, h3⟩
      · exact h
      · cases m' with
        | atomicOp => exact enabled_atomicOp hi h3
        | nonAtomic => exact enabled_nonAtomic hi h3
        | idxMap => exact enabled_top hi rfl h3
        | preproc => exact enabled_top hi rfl h3
      · exact enabled_user hi h3
  · exact enabled_cnt hi (hi.asleep t th hth hmode)
  · by_cases hn : s.sh.held .nonAtomic = none
    · refine enabled_of_tstep hth ?_
      simp [tstep, hmode, hn]
    · exact enabled_nonAtomic hi hn

/-- **C68**, full statement: for all requests there is no deadlock. -/
def C68_full : Prop :=
  ∀ (M U O : Type) (initU : M → U) (mem : M) (users : List User) (umem : Nat → U) (ops : List (Op M U O)),
    ∀ s, Run initU (start mem users umem ops) s → (∃ th ∈ s.th, ¬ th.done) → ∃ t, step initU s t ≠ none

/-- **C68** There is no deadlock: unless all requests have finished, some thread can make a step.  (Requests other
than an `initUserPars` that fails and `release_user_data`.) -/
theorem C68_no_deadlock_partial (initU : M → U) (mem : M) (users : List User) (umem : Nat → U) (ops : List (Op M U O))
    (hs : ∀ op ∈ ops, op.Safe) (s : St M U O) (hr : Run initU (start mem users umem ops) s)
    (hd : ∃ th ∈ s.th, ¬ th.done) : ∃ t, step initU s t ≠ none := by
  obtain ⟨th, hmem, hd⟩ := hd
  obtain ⟨t, ht⟩ := List.getElem?_of_mem hmem
  exact enabled_of_inv (inv_run hr (inv_start mem users umem ops hs)) ht hd

/-- A failing `initUserPars` and another request. -/
def stuckOps : List (Op Nat Nat Nat) := [.initError 1 [], .session 1 [.act fun m x => (x + m, x)]]

/-- After `initUserPars` fails, no other request can proceed. -/
theorem C68_counterexample : ¬ C68_full := by
  intro h
  let st : Option (St Nat Nat Nat) := runSched id (start 5 [1] (fun _ => 0) stuckOps) [0, 0, 0, 0, 0, 0]
  obtain ⟨s, hrs⟩ : ∃ s, st = some s := by
    cases hc : st with
    | none => exact absurd (congrArg Option.isSome hc) (by decide)
    | some s => exact ⟨s, rfl⟩
  have h1 : st.map (fun s => (step id s 0).isNone && (step id s 1).isNone) = some true := rfl
  have h2 : st.map (fun s => (s.th.length, (s.th[1]?.map fun th => th.code.length))) = some (2, some 12) := rfl
  rw [hrs] at h1 h2
  simp only [Option.map_some, Option.some.injEq, Prod.mk.injEq, Bool.and_eq_true, Option.isNone_iff_eq_none] at h1 h2
  obtain ⟨th, ht, hl⟩ := Option.map_eq_some_iff.1 h2.2
  obtain ⟨t, ht'⟩ := h Nat Nat Nat id 5 [1] (fun _ => 0) stuckOps s (run_of_sched hrs)
    ⟨th, List.mem_of_getElem? ht, by intro hd; rw [show th.code = [] from hd] at hl; simp at hl⟩
  match t, ht' with
  | 0, ht' => exact ht' h1.1
  | 1, ht' => exact ht' h1.2
  | t + 2, ht' =>
    have : s.th[t + 2]? = none := List.getElem?_eq_none (by omega)
    simp [step, this] at ht'

/-! Termination. -/

/-- Executions of `n` steps with `k` spurious wakeups. -/
inductive Steps (initU : M → U) : St M U O → Nat → Nat → St M U O → Prop
  | refl (s : St M U O) : Steps initU s 0 0 s
  | step {s s' s'' : St M U O} {n k t : Nat} : Steps initU s n k s' → Decoder.step initU s' t = some s'' → Steps initU s (n + 1) k s''
  | spurious {s s' s'' : St M U O} {n k t : Nat} : Steps initU s n k s' → Decoder.spurious s' t = some s'' → Steps initU s n (k + 1) s''

def weight : Mode → Nat
  | .run => 1
  | .asleep => 0
  | .woken => 2

/-- The instructions that remain. -/
def todo (l : List (Thread M U O)) : Nat := (l.map fun th => th.code.length).sum

def weights (l : List (Thread M U O)) : Nat := (l.map fun th => weight th.mode).sum

def measure (s : St M U O) : Nat := todo s.th * (2 * s.th.length + 1) + weights s.th

theorem sum_set {α : Type} (f : α → Nat) {l : List α} {t : Nat} {a : α} (b : α) (h : l[t]? = some a) :
    ((l.set t b).map f).sum + f a = (l.map f).sum + f b := by
  induction l generalizing t with
  | nil => simp at h
  | cons x l ih =>
    cases t with
    | zero =>
      simp only [List.getElem?_cons_zero, Option.some.injEq] at h
      subst h
      simp only [List.set_cons_zero, List.map_cons, List.sum_cons]
      omega
    | succ t =>
      simp only [List.getElem?_cons_succ] at h
      have := ih h
      simp only [List.set_cons_succ, List.map_cons, List.sum_cons]
      omega

theorem weights_le (l : List (Thread M U O)) : weights l ≤ 2 * l.length := by
  unfold weights
  induction l with
  | nil => simp
  | cons x l ih =>
    simp only [List.map_cons, List.sum_cons, List.length_cons]
    have : weight x.mode ≤ 2 := by cases x.mode <;> simp [weight]
    omega

/-- Every step decreases the measure. -/
theorem measure_step {initU : M → U} {s s' : St M U O} {t : Nat} (h : step initU s t = some s') : measure s' < measure s := by
  obtain ⟨th, th', b, ht, hs, he⟩ := step_spec h
  have hlen : s'.th.length = s.th.length := by rw [he]; simp
  have h1 : (s.th.map (w b))[t]? = some (w b th) := by simp [ht]
  have htodo := sum_set (fun th : Thread M U O => th.code.length) th' h1
  have hw1 : ((s.th.map (w b)).map fun th : Thread M U O => th.code.length) = s.th.map fun th => th.code.length := by
    rw [List.map_map]; congr 1; funext x; simp [w_code]
  rw [← he, hw1, w_code] at htodo
  have hle := weights_le s'.th
  have key : (th'.code = th.code ∧ b = false ∧ weight th'.mode < weight th.mode) ∨ (th'.code.length < th.code.length) := by
    unfold tstep at hs
    split at hs
    · exact absurd hs (by simp)
    · rename_i hm
      split at hs
      · simp only [Option.some.injEq, Prod.mk.injEq] at hs
        obtain ⟨_, rfl, rfl⟩ := hs
        exact Or.inl ⟨rfl, rfl, by simp [hm, weight]⟩
      · exact absurd hs (by simp)
    · rename_i hm
      split at hs
      · exact absurd hs (by simp)
      · rename_i i c hc
        cases i with
        | lock m =>
          simp only [exec] at hs
          split at hs
          · simp only [Option.some.injEq, Prod.mk.injEq] at hs
            obtain ⟨_, rfl, rfl⟩ := hs
            exact Or.inr (by simp [hc])
          · exact absurd hs (by simp)
        | lockUser =>
          simp only [exec] at hs
          split at hs
          · simp only [Option.some.injEq, Prod.mk.injEq] at hs
            obtain ⟨_, rfl, rfl⟩ := hs
            exact Or.inr (by simp [hc])
          · exact absurd hs (by simp)
        | wait =>
          simp only [exec] at hs
          split at hs
          · simp only [Option.some.injEq, Prod.mk.injEq] at hs
            obtain ⟨_, rfl, rfl⟩ := hs
            exact Or.inl ⟨rfl, rfl, by simp [hm, weight]⟩
          · simp only [Option.some.injEq, Prod.mk.injEq] at hs
            obtain ⟨_, rfl, rfl⟩ := hs
            exact Or.inr (by simp [hc])
        | look u =>
          simp only [exec] at hs
          split at hs
          all_goals
            simp only [Option.some.injEq, Prod.mk.injEq] at hs
            obtain ⟨_, rfl, rfl⟩ := hs
            exact Or.inr (by simp [hc])
        | _ =>
          simp only [exec, Option.some.injEq, Prod.mk.injEq] at hs
          obtain ⟨_, rfl, rfl⟩ := hs
          exact Or.inr (by simp [hc])
  unfold measure
  rw [hlen] at hle ⊢
  rcases key with ⟨k1, rfl, k3⟩ | k1
  · have hw2 : (s.th.map (w false)) = s.th := by
      rw [show (w false : Thread M U O → Thread M U O) = id from funext fun _ => rfl, List.map_id]
    have hwt := sum_set (fun th : Thread M U O => weight th.mode) th' ht
    rw [hw2] at he
    rw [← he] at hwt
    have : todo s'.th = todo s.th := by unfold todo; rw [k1] at htodo; omega
    rw [this]
    unfold weights
    omega
  · have : todo s'.th + 1 ≤ todo s.th := by unfold todo; omega
    have h2 := Nat.mul_le_mul_right (2 * s.th.length + 1) this
    rw [Nat.add_mul] at h2
    omega

theorem measure_spurious {s s' : St M U O} {t : Nat} (h : spurious s t = some s') : measure s' = measure s + 2 := by
  obtain ⟨th, ht, hm, h1, h2⟩ := spurious_spec h
  have hlen : s'.th.length = s.th.length := by rw [h2]; simp
  have hwt := sum_set (fun th : Thread M U O => weight th.mode) { th with mode := .woken } ht
  have htd := sum_set (fun th : Thread M U O => th.code.length) { th with mode := .woken } ht
  rw [← h2] at hwt htd
  have e1 : todo s'.th = todo s.th := by unfold todo; simp only at htd; omega
  have e2 : weights s'.th = weights s.th + 2 := by unfold weights; simp only [hm, weight] at hwt; simp only [weight]; omega
  unfold measure
  rw [hlen, e1, e2]; omega

theorem steps_measure {initU : M → U} {s s' : St M U O} {n k : Nat} (h : Steps initU s n k s') : n + measure s' ≤ measure s + 2 * k := by
  induction h with
  | refl => omega
  | step _ h ih => have := measure_step h; omega
  | spurious _ h ih => have := measure_spurious h; omega

theorem steps_run {initU : M → U} {s s' : St M U O} {n k : Nat} (h : Steps initU s n k s') : Run initU s s' := by
  induction h with
  | refl => exact .refl _
  | step _ h ih => exact .step ih h
  | spurious _ h ih => exact .spurious ih h

/-- **C69** Every request finishes: whatever the scheduler does, the number of steps is bounded (`I` is the number of
instructions of all requests, `N` the number of requests, `k` that of spurious wakeups), and when no thread can make a
step all requests have finished. -/
theorem C69_requests_finish_partial (initU : M → U) (mem : M) (users : List User) (umem : Nat → U) (ops : List (Op M U O))
    (hs : ∀ op ∈ ops, op.Safe) (s : St M U O) (n k : Nat) (hr : Steps initU (start mem users umem ops) n k s) :
    n ≤ (ops.map fun op => (code op).length).sum * (2 * ops.length + 1) + ops.length + 2 * k ∧
      ((∀ t, step initU s t = none) → ∀ th ∈ s.th, th.done) := by
  constructor
  · have h1 := steps_measure hr
    have h2 : measure (start mem users umem ops) = (ops.map fun op => (code op).length).sum * (2 * ops.length + 1) + ops.length := by
      have e1 : todo (start mem users umem ops).th = (ops.map fun op => (code op).length).sum := by
        simp only [todo, start, List.map_map]; rfl
      have e2 : weights (start mem users umem ops).th = ops.length := by
        simp only [weights, start, List.map_map]
        clear h1 hr hs e1
        induction ops with
        | nil => rfl
        | cons op ops ih =>
          simp only [List.map_cons, List.sum_cons, List.length_cons, ih]
          simp [weight]; omega
      have e3 : (start mem users umem ops).th.length = ops.length := by simp [start]
      rw [measure, e1, e2, e3]
    omega
  · intro hb th hmem
    by_cases hd : th.done
    · exact hd
    · obtain ⟨t, ht⟩ := C68_no_deadlock_partial initU mem users umem ops hs s (steps_run hr) ⟨th, hmem, hd⟩
      exact absurd (hb t) ht

/-- **C69**, full statement: all requests. -/
def C69_full : Prop :=
  ∀ (M U O : Type) (initU : M → U) (mem : M) (users : List User) (umem : Nat → U) (ops : List (Op M U O)) (s : St M U O) (n k : Nat),
    Steps initU (start mem users umem ops) n k s → (∀ t, step initU s t = none) → ∀ th ∈ s.th, th.done

theorem C69_counterexample : ¬ C69_full := by
  intro h
  apply C68_counterexample
  intro M U O initU mem users umem ops s hr hd
  have hsteps : ∀ {s' : St M U O}, Run initU (start mem users umem ops) s' → ∃ n k, Steps initU (start mem users umem ops) n k s' := by
    intro s' h
    induction h with
    | refl => exact ⟨0, 0, .refl _⟩
    | step _ h ih => obtain ⟨n, k, hs⟩ := ih; exact ⟨n + 1, k, hs.step h⟩
    | spurious _ h ih => obtain ⟨n, k, hs⟩ := ih; exact ⟨n, k + 1, hs.spurious h⟩
  obtain ⟨n, k, hs⟩ := hsteps hr
  obtain ⟨th, hmem, hd⟩ := hd
  apply Classical.byContradiction
  intro hno
  exact hd (h M U O initU mem users umem ops s n k hs (fun t => Classical.byContradiction fun h' => hno ⟨t, h'⟩) th hmem)

/-! A complete execution: a user's translation waits for training, which waits for the translation of another user. -/

def demoOps : List (Op Nat Nat Nat) :=
  [.session 1 [.act fun m x => (x + m, x)], .atomic 1 [.act fun m x => (m + 10, x, m)], .session 1 [.pre fun m x => (x + m, x + m)]]

def demoSched : List Nat := [0, 0, 0, 1, 1, 1] ++ List.replicate 9 0 ++ List.replicate 8 1 ++ List.replicate 14 2

/-- The second request sleeps until the first one wakes it up. -/
example : (runSched id (start 5 [1] (fun _ => 0) demoOps) (demoSched.take 13)).map (fun s => (s.th.map fun th => th.mode)) =
    some [.run, .asleep, .run] := rfl

example : (runSched id (start 5 [1] (fun _ => 0) demoOps) (demoSched.take 14)).map (fun s => (s.th.map fun th => th.mode)) =
    some [.run, .woken, .run] := rfl

/-- All requests finish; their results and the final state are those of the sequential execution. -/
example : (runSched id (start 5 [1] (fun _ => 0) demoOps) demoSched).map
    (fun s => (s.th.map (fun th => (th.code.length, th.out)), s.sh.mem, s.sh.umem 0, s.sh.users)) =
    some ([(0, [0]), (0, [5]), (0, [20])], 15, 20, [1]) := rfl

example : ∀ op ∈ demoOps, op.Safe := by
  intro op hop
  simp only [demoOps, List.mem_cons, List.not_mem_nil, or_false] at hop
  rcases hop with rfl | rfl | rfl <;> trivial

end Thot.Decoder
