import Verif.Decoder.SerProps

/-! Data races. -/

namespace Thot.Decoder

variable {M U O : Type}

/-- The data that the threads share: the state common to all users, the data of the user with index `i`,
`userIdToIdx`, `non_atomic_ops_running`, and the storage of the vectors `tdPerUserVarsVec`, `totalPrefixVec`,
`idxDataReleased` and `per_user_mut` (where their elements are). -/
inductive Loc | shared | user (i : Nat) | map | count | storage
  deriving DecidableEq

/-- What an instruction writes, in a thread whose index is `reg`.  Adding a user appends to the vectors and so
may move their elements. -/
def writes (sh : Shared M U) (reg : Nat) : Instr M U O → Loc → Prop
  | .inc, l => l = .count
  | .dec, l => l = .count
  | .look u, l => u ∉ sh.users ∧ (l = .map ∨ l = .user sh.users.length ∨ l = .storage)
  | .act f, l => l = .user reg ∨ (l = .shared ∧ ∃ m x, (f m x).1 ≠ m)
  | .mact _, l => l = .shared
  | .reset, l => l ≠ .count
  | .release u, l => u ∈ sh.users ∧ l = .user (sh.users.idxOf u)
  | _, _ => False

/-- What an instruction reads. -/
def reads (sh : Shared M U) (_reg : Nat) : Instr M U O → Loc → Prop
  | .wait, l => l = .count
  | .look u, l => l = .map ∨ (u ∉ sh.users ∧ l = .shared)
  | .act _, l => l = .shared ∨ l = .storage
  | .peek _, l => l = .shared
  | .lockUser, l => l = .storage
  | .unlockUser, l => l = .storage
  | .release _, l => l = .map ∨ l = .storage
  | _, _ => False

/-- The instruction that a thread is going to execute. -/
def Thread.next (th : Thread M U O) : Option (Instr M U O) :=
  match th.mode with
  | .run => th.code.head?
  | _ => none

/-- Two threads are going to access `l`, and one of them writes. -/
def Race (s : St M U O) (l : Loc) : Prop :=
  ∃ (t1 t2 : Nat) (th1 th2 : Thread M U O) (i1 i2 : Instr M U O), t1 ≠ t2 ∧ s.th[t1]? = some th1 ∧ s.th[t2]? = some th2 ∧
    th1.next = some i1 ∧ th2.next = some i2 ∧ writes s.sh th1.reg i1 l ∧ (writes s.sh th2.reg i2 l ∨ reads s.sh th2.reg i2 l)

theorem next_eq {th : Thread M U O} {i : Instr M U O} (h : th.next = some i) : th.mode = .run ∧ ∃ c, th.code = i :: c := by
  unfold Thread.next at h
  split at h
  · rename_i hm
    refine ⟨hm, ?_⟩
    cases hc : th.code with
    | nil => rw [hc] at h; simp at h
    | cons j c => rw [hc] at h; exact ⟨c, by simpa using h⟩
  · simp at h

theorem count_access {sh : Shared M U} {reg : Nat} {i : Instr M U O} {c : List (Instr M U O)} (hg : Good (i :: c))
    (h : writes sh reg i .count ∨ reads sh reg i .count) : holds .nonAtomic (i :: c) = true := by
  obtain ⟨hg, _⟩ := hg
  cases i <;> simp_all [writes, reads, cond, holds]

theorem shared_write {sh : Shared M U} {reg : Nat} {i : Instr M U O} {c : List (Instr M U O)} (hg : Good (i :: c))
    (h : writes sh reg i .shared) : excl (i :: c) = true := by
  obtain ⟨hg, hg2⟩ := hg
  cases i with
  | act f =>
    rcases hg with ⟨_, h2⟩ | ⟨_, h2⟩
    · rcases h with h | ⟨_, m, x, h⟩
      · simp at h
      · exact absurd (h2 m x) h
    · exact h2
  | mact f => exact hg
  | reset => exact hg.1
  | release u => exact hg.elim
  | _ => simp [writes] at h

theorem shared_access {sh : Shared M U} {reg : Nat} {i : Instr M U O} {c : List (Instr M U O)} (hg : Good (i :: c))
    (h : writes sh reg i .shared ∨ reads sh reg i .shared) : counted (i :: c) = true ∨ holds .atomicOp (i :: c) = true := by
  have hx : ∀ {c : List (Instr M U O)}, excl c = true → holds .atomicOp c = true := fun h => (excl_iff _ |>.1 h).1
  obtain ⟨hg, hg2⟩ := hg
  cases i with
  | act f =>
    rcases hg with ⟨h1, h2⟩ | ⟨_, h2⟩
    · exact Or.inl (hg2.counted h1)
    · exact Or.inr (hx h2)
  | mact f => exact Or.inr (hx hg)
  | reset => exact Or.inr (hx hg.1)
  | peek f => exact Or.inr hg
  | look u =>
    rcases hg.2.2 with h | h
    · exact Or.inl h
    · exact Or.inr (hx h)
  | release u => exact hg.elim
  | _ => simp [writes, reads] at h

/-- An access to `userIdToIdx`. -/
theorem map_access {sh : Shared M U} {reg : Nat} {i : Instr M U O} {c : List (Instr M U O)} (hg : Good (i :: c))
    (h : writes sh reg i .map ∨ reads sh reg i .map) :
    (excl (i :: c) = true ∨ counted (i :: c) = true) ∧ (holds .idxMap (i :: c) = true ∨ (excl (i :: c) = true ∧ i = .reset)) := by
  obtain ⟨hg, hg2⟩ := hg
  cases i with
  | reset => exact ⟨Or.inl hg.1, Or.inr ⟨hg.1, rfl⟩⟩
  | look u => exact ⟨hg.2.2.symm, Or.inl hg.1⟩
  | release u => exact hg.elim
  | _ => simp [writes, reads] at h

theorem user_access {sh : Shared M U} {reg k : Nat} {i : Instr M U O} {c : List (Instr M U O)} (hg : Good (i :: c))
    (h : writes sh reg i (.user k) ∨ reads sh reg i (.user k)) :
    excl (i :: c) = true ∨ (counted (i :: c) = true ∧ ((reg = k ∧ inUser (i :: c) = true) ∨
      (k = sh.users.length ∧ holds .idxMap (i :: c) = true))) := by
  obtain ⟨hg, hg2⟩ := hg
  cases i with
  | reset => exact Or.inl hg.1
  | look u =>
    rcases hg.2.2 with h3 | h3
    · simp [writes, reads] at h
      exact Or.inr ⟨h3, Or.inr ⟨h.2, hg.1⟩⟩
    · exact Or.inl h3
  | act f =>
    rcases hg with ⟨h1, h2⟩ | ⟨_, h2⟩
    · simp [writes, reads] at h
      exact Or.inr ⟨hg2.counted h1, Or.inl ⟨h.symm, h1⟩⟩
    · exact Or.inl h2
  | mact f => exact Or.inl hg
  | release u => exact hg.elim
  | _ => simp [writes, reads] at h

/-- No location but the storage of the vectors is accessed in a data race. -/
theorem no_race {initU : M → U} {ops : List (Op M U O)} {A0 : Abs M U} {s : St M U O} {l : List (Nat × List O)} {A : Abs M U}
    (hS : SInv initU ops A0 s l A) (loc : Loc) (hl : loc ≠ .storage) : ¬ Race s loc := by
  rintro ⟨t1, t2, th1, th2, i1, i2, hne, h1, h2, hn1, hn2, hw, hr⟩
  obtain ⟨m1, c1, e1⟩ := next_eq hn1
  obtain ⟨m2, c2, e2⟩ := next_eq hn2
  have g1 := hS.inv.good _ _ h1
  have g2 := hS.inv.good _ _ h2
  rw [e1] at g1
  rw [e2] at g2
  have uniq : ∀ m, holds m (i1 :: c1) = true → holds m (i2 :: c2) = true → False := by
    intro m p1 p2
    have q1 : s.sh.held m = some t1 := (hS.inv.held _ _).2 ⟨th1, h1, by rw [e1]; exact p1, fun _ => m1⟩
    have q2 : s.sh.held m = some t2 := (hS.inv.held _ _).2 ⟨th2, h2, by rw [e2]; exact p2, fun _ => m2⟩
    rw [q1] at q2
    exact hne (by simpa using q2)
  have hA : ∀ {c : List (Instr M U O)}, excl c = true → holds .atomicOp c = true := fun h => (excl_iff _ |>.1 h).1
  have nb12 : excl (i1 :: c1) = true → counted (i2 :: c2) = true → False := fun p q =>
    not_both hS.inv h2 h1 (by rw [e2]; exact q) (by rw [e1]; exact p)
  have nb21 : excl (i2 :: c2) = true → counted (i1 :: c1) = true → False := fun p q =>
    not_both hS.inv h1 h2 (by rw [e1]; exact q) (by rw [e2]; exact p)
  have xx : excl (i1 :: c1) = true → excl (i2 :: c2) = true → False := fun p q => uniq _ (hA p) (hA q)
  cases loc with
  | storage => exact hl rfl
  | count => exact uniq _ (count_access g1 (Or.inl hw)) (count_access g2 hr)
  | shared =>
    have p := shared_write g1 hw
    rcases shared_access g2 hr with q | q
    · exact nb12 p q
    · exact uniq _ (hA p) q
  | map =>
    obtain ⟨p1, p2⟩ := map_access g1 (Or.inl hw)
    obtain ⟨q1, q2⟩ := map_access g2 hr
    rcases p2 with p2 | ⟨p2, _⟩
    · rcases q2 with q2 | ⟨q2, _⟩
      · exact uniq _ p2 q2
      · rcases p1 with p1 | p1
        · exact xx p1 q2
        · exact nb21 q2 p1
    · rcases q1 with q1 | q1
      · exact xx p2 q1
      · exact nb12 p2 q1
  | user k =>
    have reglt : ∀ (t : Nat) (th : Thread M U O) (c : List (Instr M U O)), s.th[t]? = some th → th.code = c → inUser c = true →
        th.reg < s.sh.users.length := by
      intro t th c ht hc hu
      subst hc
      obtain ⟨u, _, hr⟩ := hS.needs t th ht ((hS.inv.good t th ht).inUser_needs hu)
      exact (List.getElem?_eq_some_iff.1 hr).1
    rcases user_access g1 (Or.inl hw) with p | ⟨p, p'⟩
    · rcases user_access g2 hr with q | ⟨q, _⟩
      · exact xx p q
      · exact nb12 p q
    · rcases user_access g2 hr with q | ⟨q, q'⟩
      · exact nb21 q p
      · rcases p' with ⟨p1, p2⟩ | ⟨p1, p2⟩
        · rcases q' with ⟨q1, q2⟩ | ⟨q1, q2⟩
          · have r1 : s.sh.heldU k = some t1 := (hS.inv.heldU _ _).2 ⟨th1, h1, by rw [e1]; exact p2, p1⟩
            have r2 : s.sh.heldU k = some t2 := (hS.inv.heldU _ _).2 ⟨th2, h2, by rw [e2]; exact q2, q1⟩
            rw [r1] at r2
            exact hne (by simpa using r2)
          · have := reglt _ _ _ h1 e1 p2
            omega
        · rcases q' with ⟨q1, q2⟩ | ⟨q1, q2⟩
          · have := reglt _ _ _ h2 e2 q2
            omega
          · exact uniq _ p2 q2

/-- **C66**, full statement: no execution has a data race. -/
def C66_full : Prop :=
  ∀ (M U O : Type) (initU : M → U) (mem : M) (users : List User) (umem : Nat → U) (ops : List (Op M U O)),
    users.Nodup → (∀ op ∈ ops, op.Safe) → ∀ s, Run initU (start mem users umem ops) s → ∀ l, ¬ Race s l

/-- **C66** No execution has a data race on the models, the data of a user, `userIdToIdx` or the counter of
operations.  (The vectors themselves: see the counterexample and `C67`.) -/
theorem C66_no_data_race_partial (initU : M → U) (mem : M) (users : List User) (umem : Nat → U) (ops : List (Op M U O))
    (hu : users.Nodup) (hs : ∀ op ∈ ops, op.Safe) (s : St M U O) (hr : Run initU (start mem users umem ops) s)
    (l : Loc) (hl : l ≠ .storage) : ¬ Race s l := by
  obtain ⟨l', A, hS⟩ := ser_run (ser_start initU mem users umem ops hu hs) hr
  exact no_race hS l hl

/-- Users are only removed by `clearTrans`. -/
theorem users_run {initU : M → U} {mem : M} {users : List User} {umem : Nat → U} {ops : List (Op M U O)}
    (hu : users.Nodup) (hs : ∀ op ∈ ops, op.Safe) (hc : ∀ op ∈ ops, ∀ body, op ≠ .clear body)
    {s : St M U O} (hr : Run initU (start mem users umem ops) s) : ∀ u ∈ users, u ∈ s.sh.users := by
  intro u hmem
  induction hr with
  | refl => exact hmem
  | spurious hr h ih =>
    obtain ⟨th, ht, hm, h1, h2⟩ := spurious_spec h
    rw [h1]; exact ih
  | step hr h ih =>
    rename_i s2 s3 t
    obtain ⟨l', A, hS⟩ := ser_run (ser_start initU mem users umem ops hu hs) hr
    obtain ⟨th, th', b, ht, hst, he⟩ := step_spec h
    have hop : th.op ∈ ops := by
      have : ops[t]? = some th.op := by rw [← hS.opsEq, List.getElem?_map, ht]; rfl
      exact List.mem_of_getElem? this
    unfold tstep at hst
    split at hst
    · exact absurd hst (by simp)
    · split at hst
      · simp only [Option.some.injEq, Prod.mk.injEq] at hst
        rw [← hst.1]; exact ih
      · exact absurd hst (by simp)
    · split at hst
      · exact absurd hst (by simp)
      · rename_i i c hcode
        have hsh := hS.shape t th ht
        rw [hcode] at hsh
        cases i with
        | reset =>
          cases hop' : th.op with
          | clear body => exact absurd hop' (hc _ hop body)
          | _ => rw [hop'] at hsh; exact hsh.1.elim
        | look u =>
          simp only [exec] at hst
          split at hst
          · simp only [Option.some.injEq, Prod.mk.injEq] at hst
            rw [← hst.1]; exact ih
          · simp only [Option.some.injEq, Prod.mk.injEq] at hst
            rw [← hst.1]; exact List.mem_append_left _ ih
        | lock m =>
          simp only [exec] at hst
          split at hst
          · simp only [Option.some.injEq, Prod.mk.injEq] at hst
            rw [← hst.1]; exact ih
          · exact absurd hst (by simp)
        | lockUser =>
          simp only [exec] at hst
          split at hst
          · simp only [Option.some.injEq, Prod.mk.injEq] at hst
            rw [← hst.1]; exact ih
          · exact absurd hst (by simp)
        | wait =>
          simp only [exec] at hst
          split at hst
          · simp only [Option.some.injEq, Prod.mk.injEq] at hst
            rw [← hst.1]; exact ih
          · simp only [Option.some.injEq, Prod.mk.injEq] at hst
            rw [← hst.1]; exact ih
        | _ =>
          simp only [exec, Option.some.injEq, Prod.mk.injEq] at hst
          rw [← hst.1]; exact ih

theorem storage_access {sh : Shared M U} {reg : Nat} {i : Instr M U O} {c : List (Instr M U O)} (hg : Good (i :: c))
    (h : writes sh reg i .storage ∨ reads sh reg i .storage) : counted (i :: c) = true ∨ excl (i :: c) = true := by
  obtain ⟨hg, hg2⟩ := hg
  cases i with
  | act f =>
    rcases hg with ⟨h1, h2⟩ | ⟨_, h2⟩
    · exact Or.inl (hg2.counted h1)
    · exact Or.inr h2
  | reset => exact Or.inr hg.1
  | look u => exact hg.2.2
  | lockUser => exact Or.inl hg.2.1
  | unlockUser => exact Or.inl hg.2.1
  | release u => exact hg.elim
  | _ => simp [writes, reads] at h

/-- **C67** If the users of the requests that run in parallel are known at the beginning (as in `thot_server`, where
`initUserPars` comes first) and the models are not cleared, no execution has a data race. -/
theorem C67_no_data_race_known_users (initU : M → U) (mem : M) (users : List User) (umem : Nat → U) (ops : List (Op M U O))
    (hu : users.Nodup) (hs : ∀ op ∈ ops, op.Safe) (hc : ∀ op ∈ ops, ∀ body, op ≠ .clear body)
    (hk : ∀ u body, .session u body ∈ ops → u ∈ users) (s : St M U O) (hr : Run initU (start mem users umem ops) s)
    (l : Loc) : ¬ Race s l := by
  by_cases hl : l = .storage
  · subst hl
    rintro ⟨t1, t2, th1, th2, i1, i2, hne, h1, h2, hn1, hn2, hw, hr2⟩
    obtain ⟨l', A, hS⟩ := ser_run (ser_start initU mem users umem ops hu hs) hr
    obtain ⟨_, c1, e1⟩ := next_eq hn1
    obtain ⟨_, c2, e2⟩ := next_eq hn2
    have hsh := hS.shape _ _ h1
    have g1 := hS.inv.good _ _ h1
    have g2 := hS.inv.good _ _ h2
    rw [e1] at hsh g1
    rw [e2] at g2
    have hop : th1.op ∈ ops := by
      have : ops[t1]? = some th1.op := by rw [← hS.opsEq, List.getElem?_map, h1]; rfl
      exact List.mem_of_getElem? this
    have hx : excl th1.code = true := by
      rw [e1]
      cases i1 with
      | look u =>
        rcases g1.1.2.2 with h | h
        · cases hop' : th1.op with
          | atomic v body => rw [hop'] at hsh; rw [shape_atomic_counted hsh.2] at h; simp at h
          | session v body =>
            rw [hop'] at hsh hop
            obtain rfl : u = v := hsh.1.1
            exact absurd (users_run hu hs hc hr _ (hk _ body hop)) hw.1
          | _ => rw [hop'] at hsh; exact hsh.1.elim
        · exact h
      | reset =>
        cases hop' : th1.op with
        | clear body => exact absurd hop' (hc _ hop body)
        | _ => rw [hop'] at hsh; exact hsh.1.elim
      | _ => simp [writes] at hw
    have := idle_other hS h1 hx hne.symm h2
    rw [e2] at this
    rcases storage_access g2 hr2 with h | h
    · rw [this.2.2.2.2] at h; simp at h
    · rw [this.2.2.2.1] at h; simp at h
  · exact C66_no_data_race_partial initU mem users umem ops hu hs s hr l hl

/-- Executions given by the list of threads that make a step. -/
def runSched (initU : M → U) : St M U O → List Nat → Option (St M U O)
  | s, [] => some s
  | s, t :: ts =>
    match step initU s t with
    | none => none
    | some s' => runSched initU s' ts

theorem run_trans {initU : M → U} {s s' s'' : St M U O} (h : Run initU s s') (h' : Run initU s' s'') : Run initU s s'' := by
  induction h' with
  | refl => exact h
  | step _ hs ih => exact .step ih hs
  | spurious _ hs ih => exact .spurious ih hs

theorem run_of_sched {initU : M → U} {s s' : St M U O} {l : List Nat} (h : runSched initU s l = some s') : Run initU s s' := by
  induction l generalizing s with
  | nil => simp only [runSched, Option.some.injEq] at h; subst h; exact .refl _
  | cons t ts ih =>
    simp only [runSched] at h
    split at h
    · exact absurd h (by simp)
    · rename_i s1 hs
      exact run_trans (.step (.refl _) hs) (ih h)

/-- Two translations for different users, of whom the second one is new. -/
def raceOps : List (Op Nat Nat Nat) :=
  [.session 1 [.act fun m x => (x + m, x)], .session 2 [.act fun m x => (x + m, x)]]

/-- The first one has the mutex of its user and is going to use its data, the second one is going to add its user. -/
def raceState : Option (St Nat Nat Nat) := runSched id (start 5 [1] (fun _ => 0) raceOps) [0, 0, 0, 0, 0, 0, 0, 1, 1, 1, 1]

/-- The vectors grow while a request of another user uses them. -/
theorem C66_counterexample : ¬ C66_full := by
  intro h
  have hs : ∀ op ∈ raceOps, op.Safe := by
    intro op hop
    simp only [raceOps, List.mem_cons, List.not_mem_nil, or_false] at hop
    rcases hop with rfl | rfl <;> trivial
  obtain ⟨s, hrs⟩ : ∃ s, raceState = some s := by
    cases hc : raceState with
    | none => exact absurd (congrArg Option.isSome hc) (by decide)
    | some s => exact ⟨s, rfl⟩
  have h1 : (raceState.bind fun s => s.th[0]?).bind Thread.next = some (.act (lift fun m x => (x + m, x))) := rfl
  have h2 : (raceState.bind fun s => s.th[1]?).bind Thread.next = some (.look 2) := rfl
  have h3 : raceState.map (fun s => s.sh.users) = some [1] := rfl
  rw [hrs] at h1 h2 h3
  simp only [Option.bind_some, Option.map_some, Option.some.injEq] at h1 h2 h3
  obtain ⟨th1, ht1, hn1⟩ := Option.bind_eq_some_iff.1 h1
  obtain ⟨th2, ht2, hn2⟩ := Option.bind_eq_some_iff.1 h2
  refine h Nat Nat Nat id 5 [1] (fun _ => 0) raceOps (by decide) hs s (run_of_sched hrs) .storage
    ⟨1, 0, th2, th1, _, _, by decide, ht2, ht1, hn2, hn1, ?_, Or.inr ?_⟩
  · exact ⟨by rw [h3]; decide, Or.inr (Or.inr rfl)⟩
  · exact Or.inr rfl

end Thot.Decoder
