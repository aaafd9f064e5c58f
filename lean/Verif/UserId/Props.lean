import Verif.UserId.Model
import Verif.Vocab.Props
/-! C24: user identifiers under concurrent calls. -/
namespace Thot.UserId
open AMap

/-! ### Invariant -/

def Outside : Pc → Prop
  | .idle => True
  | .want _ => True
  | _ => False

/-- What holds at each statement between lock and unlock. -/
def Crit (map : List (Str × Nat)) (log : List Done) : Pc → Prop
  | .idle => False
  | .want _ => False
  | .find _ => True
  | .size n => lk map n = none
  | .store n i => lk map n = none ∧ i = map.length
  | .genTry n => ∀ k, k < n → (lk map (Vocab.showNat k)).isSome
  | .genSize n => lk map n = none
  | .genStore n i => lk map n = none ∧ i = map.length
  | .unlock c n i => lk map n = some i ∧ (∀ m, c = .id m → n = m) ∧ (c = .gen → ∀ e ∈ log, e.name ≠ n)

structure Inv (s : State) : Prop where
  out : ∀ t, s.lock ≠ some t → Outside (s.pc t)
  crit : ∀ t, s.lock = some t → Crit s.map s.log (s.pc t)
  d : Distinct s.map
  inj : ∀ a b i, lk s.map a = some i → lk s.map b = some i → a = b
  lt : ∀ a i, lk s.map a = some i → i < s.map.length
  log : ∀ e ∈ s.log, lk s.map e.name = some e.id
  names : ∀ e ∈ s.log, ∀ n, e.call = .id n → e.name = n
  fresh : s.log.Pairwise (fun a b => b.call = .gen → a.name ≠ b.name)

/-- Changing only the program counter of the lock holder. -/
theorem inv_pc {s : State} (h : Inv s) (t : Tid) (hl : s.lock = some t) (p : Pc) (hp : Crit s.map s.log p) :
    Inv { s with pc := setPc s.pc t p } := by
  refine ⟨?_, ?_, h.d, h.inj, h.lt, h.log, h.names, h.fresh⟩
  · intro u hu
    have : u ≠ t := fun e => hu (by rw [e]; exact hl)
    simp only [setPc, this, if_false]
    exact h.out u hu
  · intro u hu
    have : u = t := by
      have hu : s.lock = some u := hu
      rw [hl] at hu; injection hu with hu; exact hu.symm
    subst this
    simp only [setPc, if_true]
    exact hp

theorem inv_store {s : State} (h : Inv s) (t : Tid) (hl : s.lock = some t) (n : Str) (hn : lk s.map n = none) (c : Call)
    (hc : ∀ m, c = .id m → n = m) :
    Inv { s with map := put s.map n s.map.length, pc := setPc s.pc t (.unlock c n s.map.length) } := by
  have hlen : (put s.map n s.map.length).length = s.map.length + 1 := by rw [put_of_none _ hn]; simp
  refine ⟨?_, ?_, distinct_put h.d _ _, ?_, ?_, ?_, h.names, h.fresh⟩
  · intro u hu
    have : u ≠ t := fun e => hu (by rw [e]; exact hl)
    simp only [setPc, this, if_false]
    exact h.out u hu
  · intro u hu
    have : u = t := by
      have hu : s.lock = some u := hu
      rw [hl] at hu; injection hu with hu; exact hu.symm
    subst this
    simp only [setPc, if_true]
    refine ⟨lk_put_self _ _ _, hc, ?_⟩
    intro _ e he hen
    rw [← hen, h.log e he] at hn; cases hn
  · intro a b i ha hb
    simp only [lk_put] at ha hb
    by_cases h1 : a = n <;> by_cases h2 : b = n
    · rw [h1, h2]
    · rw [if_pos h1] at ha; rw [if_neg h2] at hb
      injection ha with ha; have := h.lt _ _ hb; omega
    · rw [if_neg h1] at ha; rw [if_pos h2] at hb
      injection hb with hb; have := h.lt _ _ ha; omega
    · rw [if_neg h1] at ha; rw [if_neg h2] at hb
      exact h.inj a b i ha hb
  · intro a i ha
    simp only at ha ⊢
    rw [hlen]
    rw [lk_put] at ha
    split at ha
    · injection ha with ha; omega
    · have := h.lt _ _ ha; omega
  · intro e he
    have := h.log e he
    have hne : e.name ≠ n := by intro hh; rw [hh, hn] at this; cases this
    simp only [lk_put_ne _ _ hne]; exact this

theorem lock_of_in {s : State} (h : Inv s) (t : Tid) (ho : ¬ Outside (s.pc t)) : s.lock = some t := by
  apply Classical.byContradiction
  intro hn; exact ho (h.out t hn)

theorem inv_step {s s' : State} (h : Inv s) {t : Tid} (hs : Step t s s') : Inv s' := by
  cases hs with
  | call c hp =>
    have hnl : s.lock ≠ some t := by intro hl; have := h.crit t hl; rw [hp] at this; exact this
    refine ⟨?_, ?_, h.d, h.inj, h.lt, h.log, h.names, h.fresh⟩
    · intro u hu
      by_cases hut : u = t
      · subst hut; simp [setPc, Outside]
      · simp only [setPc, hut, if_false]; exact h.out u hu
    · intro u hu
      have hut : u ≠ t := by intro e; subst e; exact hnl hu
      simp only [setPc, hut, if_false]; exact h.crit u hu
  | lock c hp hl =>
    refine ⟨?_, ?_, h.d, h.inj, h.lt, h.log, h.names, h.fresh⟩
    · intro u hu
      have hut : u ≠ t := by intro e; subst e; exact hu rfl
      simp only [setPc, hut, if_false]; exact h.out u (by rw [hl]; simp)
    · intro u hu
      have hut : u = t := by simp only at hu; injection hu with hu; exact hu.symm
      subst hut
      simp only [setPc, if_true]
      cases c with
      | id n => simp [enter, Crit]
      | gen => simp [enter, Crit]
  | found n i hp hf =>
    have hl := lock_of_in h t (by rw [hp]; simp [Outside])
    exact inv_pc h t hl _ ⟨hf, fun m hm => by injection hm, fun hc => by cases hc⟩
  | notFound n hp hf =>
    have hl := lock_of_in h t (by rw [hp]; simp [Outside])
    exact inv_pc h t hl _ hf
  | size n hp =>
    have hl := lock_of_in h t (by rw [hp]; simp [Outside])
    have hc := h.crit t hl; rw [hp] at hc
    exact inv_pc h t hl _ ⟨hc, rfl⟩
  | store n i hp =>
    have hl := lock_of_in h t (by rw [hp]; simp [Outside])
    have hc := h.crit t hl; rw [hp] at hc
    obtain ⟨hc, rfl⟩ := hc
    exact inv_store h t hl n hc _ (fun m hm => by injection hm)
  | genNext n hp hf =>
    have hl := lock_of_in h t (by rw [hp]; simp [Outside])
    have hc := h.crit t hl; rw [hp] at hc
    refine inv_pc h t hl _ ?_
    intro k hk
    by_cases hkn : k = n
    · rw [hkn]; exact hf
    · exact hc k (by omega)
  | genHit n hp hf =>
    have hl := lock_of_in h t (by rw [hp]; simp [Outside])
    exact inv_pc h t hl _ hf
  | genSize n hp =>
    have hl := lock_of_in h t (by rw [hp]; simp [Outside])
    have hc := h.crit t hl; rw [hp] at hc
    exact inv_pc h t hl _ ⟨hc, rfl⟩
  | genStore n i hp =>
    have hl := lock_of_in h t (by rw [hp]; simp [Outside])
    have hc := h.crit t hl; rw [hp] at hc
    obtain ⟨hc, rfl⟩ := hc
    exact inv_store h t hl n hc _ (fun m hm => by cases hm)
  | unlock c n i hp =>
    have hl := lock_of_in h t (by rw [hp]; simp [Outside])
    have hc := h.crit t hl; rw [hp] at hc
    obtain ⟨c1, c2, c3⟩ := hc
    refine ⟨?_, ?_, h.d, h.inj, h.lt, ?_, ?_, ?_⟩
    · intro u _
      by_cases hut : u = t
      · subst hut; simp [setPc, Outside]
      · simp only [setPc, hut, if_false]
        refine h.out u ?_
        rw [hl]; intro hh; injection hh with hh; exact hut hh.symm
    · intro u hu; simp at hu
    · intro e he
      rcases List.mem_append.1 he with he | he
      · exact h.log e he
      · rw [List.mem_singleton.1 he]; exact c1
    · intro e he m hm
      rcases List.mem_append.1 he with he | he
      · exact h.names e he m hm
      · rw [List.mem_singleton.1 he] at hm ⊢; exact c2 m hm
    · rw [List.pairwise_append]
      refine ⟨h.fresh, List.pairwise_singleton _ _, ?_⟩
      intro a ha b hb hg
      rw [List.mem_singleton.1 hb] at hg ⊢
      exact c3 hg a ha

theorem inv_reach {s : State} (h : Reach s) : Inv s := by
  induction h with
  | init =>
    refine ⟨fun t _ => trivial, ?_, distinct_nil, ?_, ?_, ?_, ?_, List.Pairwise.nil⟩
    · intro t ht; cases ht
    · intro a b i ha; cases ha
    · intro a i ha; cases ha
    · intro e he; cases he
    · intro e he; cases he
  | step t _ hs ih => exact inv_step ih hs

/-! ### C24 -/

/-- **C24.** Under any interleaving of calls by any number of threads: two completed calls returned the same identifier
exactly when they are about the same user name (so identifiers never change and are never shared); `idForUserName(n)`
is about `n`; and a name made up by `genNewUserNameIdPair` differs from the names of all calls completed before. -/
theorem C24 {s : State} (h : Reach s) :
    (∀ e ∈ s.log, ∀ e' ∈ s.log, e.name = e'.name ↔ e.id = e'.id) ∧
    (∀ e ∈ s.log, ∀ n, e.call = .id n → e.name = n) ∧
    (∀ i j (hj : j < s.log.length) (hij : i < j), s.log[j].call = .gen → s.log[i].name ≠ s.log[j].name) := by
  have hi := inv_reach h
  refine ⟨?_, hi.names, ?_⟩
  · intro e he e' he'
    have h1 := hi.log e he
    have h2 := hi.log e' he'
    constructor
    · intro hn; rw [hn, h2] at h1; injection h1 with h1; exact h1.symm
    · intro hid; rw [← hid] at h2; exact hi.inj _ _ _ h1 h2
  · intro i j hj hij
    exact (List.pairwise_iff_getElem.1 hi.fresh) i j (by omega) hj hij

/-- Mutual exclusion: two threads are never both between lock and unlock. -/
theorem C24_mutex {s : State} (h : Reach s) (t u : Tid) (ht : ¬ Outside (s.pc t)) (hu : ¬ Outside (s.pc u)) : t = u := by
  have h1 := lock_of_in (inv_reach h) t ht
  have h2 := lock_of_in (inv_reach h) u hu
  rw [h1] at h2; injection h2

/-- The search of `genNewUserNameIdPair` for a free name stops: the candidate number never exceeds the number of names in
use. -/
theorem C24_gen_terminates {s : State} (h : Reach s) (t : Tid) (n : Nat) (hp : s.pc t = .genTry n) : n ≤ s.map.length := by
  have hi := inv_reach h
  have hl := lock_of_in hi t (by rw [hp]; simp [Outside])
  have hc := hi.crit t hl
  rw [hp] at hc
  have hinj : ∀ a b, Vocab.showNat a = Vocab.showNat b → a = b := by
    intro a b hab
    rw [← Vocab.atoiDigits_showNat a, hab, Vocab.atoiDigits_showNat]
  have hsub : ∀ x ∈ (List.range n).map Vocab.showNat, x ∈ s.map.map Prod.fst := by
    intro x hx
    obtain ⟨k, hk, rfl⟩ := List.mem_map.1 hx
    have := hc k (List.mem_range.1 hk)
    apply Classical.byContradiction
    intro hn
    rw [lk_none_iff.2 hn] at this; cases this
  have hnd : ((List.range n).map Vocab.showNat).Nodup := by
    rw [List.Nodup, List.pairwise_map]
    exact List.nodup_range.imp (fun hab he => hab (hinj _ _ he))
  have := List.Nodup.length_le_of_subset hnd hsub
  simpa using this

/-- No deadlock: as long as some thread is inside a call, some thread inside a call can execute a statement. -/
theorem C24_no_deadlock {s : State} (h : Reach s) (t : Tid) (ht : s.pc t ≠ .idle) :
    ∃ u s', s.pc u ≠ .idle ∧ Step u s s' := by
  have hi := inv_reach h
  cases hl : s.lock with
  | none =>
    have := hi.out t (by rw [hl]; simp)
    cases hp : s.pc t with
    | idle => exact absurd hp ht
    | want c => exact ⟨t, _, by rw [hp]; simp, .lock s c hp hl⟩
    | _ => rw [hp] at this; exact absurd this (by simp [Outside])
  | some u =>
    have hc := hi.crit u hl
    cases hp : s.pc u with
    | idle => rw [hp] at hc; exact hc.elim
    | want c => rw [hp] at hc; exact hc.elim
    | find n =>
      cases hf : lk s.map n with
      | none => exact ⟨u, _, by rw [hp]; simp, .notFound s n hp hf⟩
      | some i => exact ⟨u, _, by rw [hp]; simp, .found s n i hp hf⟩
    | size n => exact ⟨u, _, by rw [hp]; simp, .size s n hp⟩
    | store n i => exact ⟨u, _, by rw [hp]; simp, .store s n i hp⟩
    | genTry n =>
      cases hf : lk s.map (Vocab.showNat n) with
      | none => exact ⟨u, _, by rw [hp]; simp, .genHit s n hp hf⟩
      | some i => exact ⟨u, _, by rw [hp]; simp, .genNext s n hp (by rw [hf]; rfl)⟩
    | genSize n => exact ⟨u, _, by rw [hp]; simp, .genSize s n hp⟩
    | genStore n i => exact ⟨u, _, by rw [hp]; simp, .genStore s n i hp⟩
    | unlock c n i => exact ⟨u, _, by rw [hp]; simp, .unlock s c n i hp⟩

/-- A reachable state with two completed calls of different threads: thread 0 asks for "0" and thread 1, which had
started before, gets the generated name "1". -/
example : ∃ s, Reach s ∧ s.log = [⟨0, .id ['0'], ['0'], 0⟩, ⟨1, .gen, ['1'], 1⟩] := by
  have h0 := Reach.init
  have h1 := h0.step 1 (.call _ .gen rfl)
  have h2 := h1.step 0 (.call _ (.id ['0']) rfl)
  have h3 := h2.step 0 (.lock _ (.id ['0']) rfl rfl)
  have h4 := h3.step 0 (.notFound _ ['0'] rfl rfl)
  have h5 := h4.step 0 (.size _ ['0'] rfl)
  have h6 := h5.step 0 (.store _ ['0'] _ rfl)
  have h7 := h6.step 0 (.unlock _ _ _ _ rfl)
  have h8 := h7.step 1 (.lock _ .gen rfl rfl)
  have e0 : Vocab.showNat 0 = ['0'] := by decide +kernel
  have e1 : Vocab.showNat 1 = ['1'] := by decide +kernel
  have h9 := h8.step 1 (.genNext _ 0 rfl (by rw [e0]; rfl))
  have h10 := h9.step 1 (.genHit _ 1 rfl (by rw [e1]; rfl))
  have h11 := h10.step 1 (.genSize _ _ rfl)
  have h12 := h11.step 1 (.genStore _ _ _ rfl)
  have h13 := h12.step 1 (.unlock _ _ _ _ rfl)
  refine ⟨_, h13, ?_⟩
  simp only [e1, init, List.nil_append, List.cons_append]
  rfl

end Thot.UserId
