import Verif.Decoder.LiveProps

/-! Use of the data of a user after `release_user_data`. -/

namespace Thot.Decoder

variable {M U O : Type}

/-- Some thread is going to use data that have been deleted. -/
def UseAfterFree (s : St M U O) : Prop :=
  ∃ (t : Nat) (th : Thread M U O) (f : M → U → M × U × O), s.th[t]? = some th ∧ th.next = some (.act f) ∧ th.reg ∈ s.sh.freed

/-- **C70**, full statement: no request uses deleted data. -/
def C70_full : Prop :=
  ∀ (M U O : Type) (initU : M → U) (mem : M) (users : List User) (umem : Nat → U) (ops : List (Op M U O)),
    ∀ s, Run initU (start mem users umem ops) s → ¬ UseAfterFree s

theorem freed_run {initU : M → U} {mem : M} {users : List User} {umem : Nat → U} {ops : List (Op M U O)}
    (hs : ∀ op ∈ ops, op.Safe) {s : St M U O} (hr : Run initU (start mem users umem ops) s) : s.sh.freed = [] := by
  induction hr with
  | refl => rfl
  | spurious hr h ih =>
    obtain ⟨th, ht, hm, h1, h2⟩ := spurious_spec h
    rw [h1]; exact ih
  | step hr h ih =>
    rename_i s2 s3 t
    have hI := inv_run hr (inv_start mem users umem ops hs)
    obtain ⟨th, th', b, ht, hst, he⟩ := step_spec h
    have hg := hI.good t th ht
    unfold tstep at hst
    split at hst
    · exact absurd hst (by simp)
    · split at hst
      · simp only [Option.some.injEq, Prod.mk.injEq] at hst
        rw [← hst.1]; exact ih
      · exact absurd hst (by simp)
    · split at hst
      · exact absurd hst (by simp)
      · rename_i i c hcode
        rw [hcode] at hg
        cases i with
        | release u => exact hg.1.elim
        | reset =>
          simp only [exec, Option.some.injEq, Prod.mk.injEq] at hst
          rw [← hst.1]
        | look u =>
          simp only [exec] at hst
          split at hst <;> simp only [Option.some.injEq, Prod.mk.injEq] at hst <;> rw [← hst.1] <;> exact ih
        | lock m =>
          simp only [exec] at hst
          split at hst
          · simp only [Option.some.injEq, Prod.mk.injEq] at hst
            rw [← hst.1]; exact ih
          · exact absurd hst (by simp)
        | lockUser =>
          simp only [exec] at hst
          split at hst
          · simp only [Option.some.injEq, Prod.mk.injEq] at hst
            rw [← hst.1]; exact ih
          · exact absurd hst (by simp)
        | wait =>
          simp only [exec] at hst
          split at hst <;> simp only [Option.some.injEq, Prod.mk.injEq] at hst <;> rw [← hst.1] <;> exact ih
        | _ =>
          simp only [exec, Option.some.injEq, Prod.mk.injEq] at hst
          rw [← hst.1]; exact ih

/-- **C70** No request uses deleted data if `release_user_data` is not called (`clearTrans`, which deletes the data of
all users, does not make any request use them). -/
theorem C70_no_use_after_free_partial (initU : M → U) (mem : M) (users : List User) (umem : Nat → U) (ops : List (Op M U O))
    (hs : ∀ op ∈ ops, op.Safe) (s : St M U O) (hr : Run initU (start mem users umem ops) s) : ¬ UseAfterFree s := by
  rintro ⟨t, th, f, _, _, h⟩
  rw [freed_run hs hr] at h
  simp at h

/-- The data of a user are released and then the user translates (the user is still in `userIdToIdx`). -/
def freeOps : List (Op Nat Nat Nat) := [.release 1, .session 1 [.act fun m x => (x + m, x)]]

theorem C70_counterexample : ¬ C70_full := by
  intro h
  let st : Option (St Nat Nat Nat) := runSched id (start 5 [1] (fun _ => 0) freeOps) [0, 0, 0, 1, 1, 1, 1, 1, 1, 1]
  obtain ⟨s, hrs⟩ : ∃ s, st = some s := by
    cases hc : st with
    | none => exact absurd (congrArg Option.isSome hc) (by decide)
    | some s => exact ⟨s, rfl⟩
  have h1 : (st.bind fun s => s.th[1]?).map (fun th => (th.next, th.reg)) = some (some (.act (lift fun m x => (x + m, x))), 0) := rfl
  have h2 : st.map (fun s => s.sh.freed) = some [0] := rfl
  rw [hrs] at h1 h2
  simp only [Option.bind_some, Option.map_some, Option.some.injEq] at h1 h2
  obtain ⟨th, ht, hth⟩ := Option.map_eq_some_iff.1 h1
  simp only [Prod.mk.injEq] at hth
  exact h Nat Nat Nat id 5 [1] (fun _ => 0) freeOps s (run_of_sched hrs) ⟨1, th, _, ht, hth.1, by rw [h2, hth.2]; simp⟩

end Thot.Decoder
