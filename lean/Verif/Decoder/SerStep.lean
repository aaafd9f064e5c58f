import Verif.Decoder.Ser

namespace Thot.Decoder

variable {M U O : Type}

theorem atomic_unique {s : St M U O} (hi : Inv s) {t t' : Nat} {x y : Thread M U O} (hx : s.th[t]? = some x) (hy : s.th[t']? = some y)
    (h1 : holds .atomicOp x.code = true) (h2 : holds .atomicOp y.code = true) : t = t' := by
  have e1 : s.sh.held .atomicOp = some t := (hi.held _ _).2 ⟨x, hx, h1, by simp⟩
  have e2 : s.sh.held .atomicOp = some t' := (hi.held _ _).2 ⟨y, hy, h2, by simp⟩
  rw [e1] at e2; simpa using e2

theorem not_both {s : St M U O} (hi : Inv s) {t t' : Nat} {x y : Thread M U O} (hx : s.th[t]? = some x) (hy : s.th[t']? = some y)
    (h1 : counted x.code = true) (h2 : excl y.code = true) : False := by
  have h3 := hi.excl t' y hy h2
  rw [hi.cnt] at h3
  have h4 : s.th.countP (fun th => counted th.code) = 0 := by omega
  rw [List.countP_eq_zero] at h4
  exact h4 x (List.mem_of_getElem? hx) h1

/-- An operation that is not using the data is not concerned by their changes. -/
theorem TI.idle {initU : M → U} {A A' : Abs M U} {sh sh' : Shared M U} {op : Op M U O} {c : List (Instr M U O)} {reg : Nat} {out : List O}
    (h : TI initU A sh op c reg out) (h1 : inUser c = false) (h2 : holds .atomicOp c = false) : TI initU A' sh' op c reg out := by
  have h3 : excl c = false := by simp [excl, h2]
  cases op with
  | session u body => exact ⟨h.1, by simp [h1]⟩
  | atomic u body => exact ⟨h.1, by simp [h3]⟩
  | clear body => exact ⟨h.1, h.2.1, by simp [h3]⟩
  | print body => exact ⟨h.1, by simp [h2]⟩
  | initError u body => exact h
  | release u => exact h

/-- The same while an operation of another user changes the data. -/
theorem TI.other {initU : M → U} {A A' : Abs M U} {sh sh' : Shared M U} {op : Op M U O} {c : List (Instr M U O)} {reg : Nat} {out : List O}
    (h : TI initU A sh op c reg out) (h1 : excl c = false) (hm : sh'.mem = sh.mem) (hA : A'.mem = A.mem)
    (h2 : inUser c = true → sh'.umem reg = sh.umem reg ∧ ∀ u, op.user = some u → A'.data initU u = A.data initU u) :
    TI initU A' sh' op c reg out := by
  cases op with
  | session u body =>
    refine ⟨h.1, fun hu => ?_⟩
    obtain ⟨h3, h4⟩ := h2 hu
    rw [hm, h3, hA, h4 u rfl]
    exact h.2 hu
  | atomic u body => exact ⟨h.1, by simp [h1]⟩
  | clear body => exact ⟨h.1, h.2.1, by simp [h1]⟩
  | print body => exact ⟨h.1, by rw [hA]; exact h.2⟩
  | initError u body => exact h
  | release u => exact h

theorem excl_lock {m : Mtx} {c : List (Instr M U O)} (h : m = .atomicOp ∨ m = .nonAtomic → excl c = false) :
    excl (.lock m :: c) = excl c := by
  by_cases hA : m = .atomicOp
  · rw [h (Or.inl hA)]; simp [excl, holds, hA]
  · by_cases hN : m = .nonAtomic
    · rw [h (Or.inr hN)]; simp [excl, holds, hN]
    · simp [excl, holds, hA, hN, noWait]

theorem excl_unlock_of {m : Mtx} {c : List (Instr M U O)} (h : excl c = true) : excl (.unlock m :: c) = true := by
  rw [excl_iff] at h ⊢
  simp only [holds, noWait]
  refine ⟨?_, ?_, h.2.2⟩
  · split
    · rfl
    · exact h.1
  · split
    · rfl
    · exact h.2.1

/-- The other threads while a thread excludes them. -/
theorem idle_other {initU : M → U} {ops : List (Op M U O)} {A0 : Abs M U} {s : St M U O} {l : List (Nat × List O)} {A : Abs M U}
    (hS : SInv initU ops A0 s l A) {t : Nat} {th : Thread M U O} (ht : s.th[t]? = some th) (hx : excl th.code = true)
    {t' : Nat} {y : Thread M U O} (hne : t' ≠ t) (hy : s.th[t']? = some y) :
    inUser y.code = false ∧ holds .atomicOp y.code = false ∧ needs y.code = false ∧ excl y.code = false ∧ counted y.code = false := by
  have h2 : holds .atomicOp y.code = false := by
    cases h : holds .atomicOp y.code with
    | false => rfl
    | true => exact absurd (atomic_unique hS.inv hy ht h (excl_iff _ |>.1 hx).1) hne
  have h4 : excl y.code = false := by simp [excl, h2]
  have h5 : counted y.code = false := by
    cases h : counted y.code with
    | false => rfl
    | true => exact (not_both hS.inv hy ht h hx).elim
  refine ⟨?_, h2, ?_, h4, h5⟩
  · cases h : inUser y.code with
    | false => rfl
    | true => rw [(hS.inv.good t' y hy).counted h] at h5; simp at h5
  · cases h : needs y.code with
    | false => rfl
    | true =>
      rcases (hS.inv.good t' y hy).needs h with h | h
      · rw [h] at h5; simp at h5
      · rw [h] at h4; simp at h4

/-- When there is no operation in progress, all known users have data. -/
theorem registered {initU : M → U} {ops : List (Op M U O)} {A0 : Abs M U} {s : St M U O} {l : List (Nat × List O)} {A : Abs M U}
    (hS : SInv initU ops A0 s l A) (hc : s.sh.cnt ≤ 0) (hx : ∀ (t : Nat) (th : Thread M U O), s.th[t]? = some th → excl th.code = false)
    (u : User) (hu : u ∈ s.sh.users) : A.us u ≠ none := by
  rcases hS.reg u hu with h | ⟨t, th, ht, _, _, h | h⟩
  · exact h
  · have : 0 < s.th.countP fun th => counted th.code := List.countP_pos_iff.2 ⟨th, List.mem_of_getElem? ht, h⟩
    have := hS.inv.cnt
    omega
  · rw [hx t th ht] at h; simp at h

theorem data_of_some {initU : M → U} {A : Abs M U} {u : User} (h : A.us u ≠ none) : A.us u = some (A.data initU u) := by
  unfold Abs.data
  cases h' : A.us u with
  | none => exact absurd h' h
  | some x => rfl


section
variable {initU : M → U} {ops : List (Op M U O)} {A0 : Abs M U} {s s' : St M U O} {l : List (Nat × List O)} {A : Abs M U}
  {t : Nat} {th th' : Thread M U O} {b : Bool} {c : List (Instr M U O)}

theorem ser_lock {m : Mtx} (hS : SInv initU ops A0 s l A) (ht : s.th[t]? = some th) (hc : th.code = .lock m :: c)
    (hth : th' = { th with code := c }) (hsh : s'.sh = { s.sh with held := upd s.sh.held m (some t) })
    (he : s'.th = (s.th.map (w b)).set t th') (hinv : Inv s') : SInv initU ops A0 s' l A := by
  have hg := hS.inv.good t th ht
  have hs := hS.shape t th ht
  rw [hc] at hg hs
  obtain ⟨h1, h2, h3, h4, h5⟩ := hg.1
  subst hth
  have hx := excl_lock h5
  refine hS.silent ht he hinv rfl rfl rfl hs.2 (by rw [hsh]) (by rw [hsh]) (by rw [hsh]) (by rw [hsh]; exact fun _ h => h) ?_ ?_ ?_ ?_ ?_ ?_
  · rw [hc]
    cases th.op <;> simp [pend, noWait, hx]
  · rw [hc]; exact id
  · intro hp h
    rw [hc] at h
    rw [hsh]
    cases hop : th.op with
    | session u body => rw [hop] at h; exact h
    | atomic u body =>
      rw [hop] at h
      simp only [TI, hx] at h ⊢
      simpa [acts] using h
    | clear body =>
      rw [hop] at h
      simp only [TI, hx] at h ⊢
      simpa [macts] using h
    | print body =>
      rw [hop] at h
      by_cases hm : m = .atomicOp
      · subst hm
        have h6 := h.1 (by simp [holds])
        refine ⟨fun h' => ?_, fun _ => ?_⟩
        · rw [h1] at h'; simp at h'
        · have h7 : peeks c = body := h6.2
          rw [h6.1, h7]; rfl
      · simp only [TI, holds, hm, if_false] at h ⊢
        exact h
    | initError u body => rw [hop] at h; exact h
    | release u => rw [hop] at h; exact h
  · rw [hc]; exact id
  · rw [hc, hx]; exact id
  · rw [hc]; exact fun _ h => h

theorem ser_woken (hS : SInv initU ops A0 s l A) (ht : s.th[t]? = some th)
    (hth : th' = { th with mode := .run }) (hsh : s'.sh = { s.sh with held := upd s.sh.held .nonAtomic (some t) })
    (he : s'.th = (s.th.map (w b)).set t th') (hinv : Inv s') : SInv initU ops A0 s' l A := by
  subst hth
  refine hS.silent ht he hinv rfl rfl rfl (hS.shape t th ht) (by rw [hsh]) (by rw [hsh]) (by rw [hsh]) (by rw [hsh]; exact fun _ h => h) Iff.rfl
    id ?_ id id (fun _ h => h)
  rw [hsh]; exact fun _ h => h

theorem ser_sleep (hS : SInv initU ops A0 s l A) (ht : s.th[t]? = some th)
    (hth : th' = { th with mode := .asleep }) (hsh : s'.sh = { s.sh with held := upd s.sh.held .nonAtomic none })
    (he : s'.th = (s.th.map (w b)).set t th') (hinv : Inv s') : SInv initU ops A0 s' l A := by
  subst hth
  refine hS.silent ht he hinv rfl rfl rfl (hS.shape t th ht) (by rw [hsh]) (by rw [hsh]) (by rw [hsh]) (by rw [hsh]; exact fun _ h => h) Iff.rfl
    id ?_ id id (fun _ h => h)
  rw [hsh]; exact fun _ h => h

theorem ser_inc (hS : SInv initU ops A0 s l A) (ht : s.th[t]? = some th) (hc : th.code = .inc :: c)
    (hth : th' = { th with code := c }) (hsh : s'.sh = { s.sh with cnt := s.sh.cnt + 1 })
    (he : s'.th = (s.th.map (w b)).set t th') (hinv : Inv s') : SInv initU ops A0 s' l A := by
  have hg := hS.inv.good t th ht
  have hs := hS.shape t th ht
  rw [hc] at hg hs
  obtain ⟨h1, h2, h3, h4⟩ := hg.1
  subst hth
  refine hS.silent ht he hinv rfl rfl rfl hs.2 (by rw [hsh]) (by rw [hsh]) (by rw [hsh]) (by rw [hsh]; exact fun _ h => h) ?_ ?_ ?_ ?_ ?_ ?_
  · rw [hc]
    cases hop : th.op <;> rw [hop] at hs <;> first | exact hs.1.elim | simp [pend]
  · rw [hc]; exact id
  · intro hp h
    rw [hc] at h
    rw [hsh]
    cases hop : th.op <;> rw [hop] at hs h <;> first | exact hs.1.elim | exact h
  · rw [hc]; simp [Decoder.quiet]
  · rw [hc]; simp [Decoder.excl, holds, noWait]
  · intro _ _; exact h2

theorem ser_dec (hS : SInv initU ops A0 s l A) (ht : s.th[t]? = some th) (hc : th.code = .dec :: c)
    (hth : th' = { th with code := c }) (hsh : s'.sh = { s.sh with cnt := s.sh.cnt - 1 })
    (he : s'.th = (s.th.map (w b)).set t th') (hinv : Inv s') : SInv initU ops A0 s' l A := by
  have hg := hS.inv.good t th ht
  have hs := hS.shape t th ht
  rw [hc] at hg hs
  obtain ⟨h1, h2, h3, h4⟩ := hg.1
  subst hth
  have hp : ¬ pend th.op th.code ∧ ¬ pend th.op c := by
    rw [hc]
    cases hop : th.op <;> rw [hop] at hs <;> first | exact hs.1.elim | exact ⟨by simpa [pend] using show Instr.unlockUser ∉ c from hs.1, hs.1⟩
  refine hS.silent ht he hinv rfl rfl rfl hs.2 (by rw [hsh]) (by rw [hsh]) (by rw [hsh]) (by rw [hsh]; exact fun _ h => h)
    ⟨fun h => absurd h hp.2, fun h => absurd h hp.1⟩ ?_ (fun h => absurd h hp.1) ?_ ?_ (fun h => absurd h hp.1)
  · rw [hc]; exact id
  · rw [hc]; exact id
  · rw [hc]; simp [Decoder.excl, holds, noWait]

theorem ser_lockUser (hS : SInv initU ops A0 s l A) (ht : s.th[t]? = some th) (hc : th.code = .lockUser :: c)
    (hfree : s.sh.heldU th.reg = none)
    (hth : th' = { th with code := c }) (hsh : s'.sh = { s.sh with heldU := upd s.sh.heldU th.reg (some t) })
    (he : s'.th = (s.th.map (w b)).set t th') (hinv : Inv s') : SInv initU ops A0 s' l A := by
  have hg := hS.inv.good t th ht
  have hs := hS.shape t th ht
  have hn := hS.needs t th ht
  rw [hc] at hg hs hn
  obtain ⟨u, hu, hreg⟩ := hn rfl
  obtain ⟨h1, h2, h3⟩ := hg.1
  subst hth
  refine hS.silent ht he hinv rfl rfl rfl hs.2 (by rw [hsh]) (by rw [hsh]) (by rw [hsh]) ?_ ?_ ?_ ?_ ?_ ?_ ?_
  · intro i
    rw [hsh]
    simp only [upd]
    split
    · simp
    · exact id
  · rw [hc]
    cases hop : th.op <;> rw [hop] at hs <;> first | exact hs.1.elim | simp [pend]
  · intro _; rw [hc]; rfl
  · intro hp h
    rw [hc] at h
    rw [hsh]
    cases hop : th.op with
    | session v body =>
      rw [hop] at h hs hu
      obtain rfl : v = u := by simpa [Op.user] using hu
      have h6 := h.1 rfl
      refine ⟨fun h' => by rw [h1] at h'; simp at h', fun _ => ?_⟩
      have hG := hS.glob (by
        intro t' y hy
        cases hx : excl y.code with
        | false => rfl
        | true => exact (not_both hS.inv ht hy (by rw [hc]; exact h2) hx).elim)
      have h7 : acts c = acts (code (.session v body)) := h6.2
      have h8 := hG.data _ _ hreg hfree
      simp only
      rw [h7, acts_code_session, hG.mem, h8, h6.1]
      exact ⟨rfl, rfl⟩
    | _ => rw [hop] at hs; exact hs.1.elim
  · rw [hc]; simp [Decoder.quiet]
  · rw [hc]; simp [Decoder.excl, holds, noWait]
  · intro _ _; exact h2

theorem ser_pass (hS : SInv initU ops A0 s l A) (ht : s.th[t]? = some th) (hc : th.code = .wait :: c)
    (hcnt : ¬ s.sh.cnt > 0)
    (hth : th' = { th with code := c }) (hsh : s'.sh = s.sh)
    (he : s'.th = (s.th.map (w b)).set t th') (hinv : Inv s') : SInv initU ops A0 s' l A := by
  have hg := hS.inv.good t th ht
  have hs := hS.shape t th ht
  rw [hc] at hg hs
  obtain ⟨h1, h2, h3, h4, h5, h6, h7, h8⟩ := hg.1
  subst hth
  have hxc : excl c = true := excl_iff _ |>.2 ⟨h2, h1, h8⟩
  have hall : ∀ (t' : Nat) (y : Thread M U O), s.th[t']? = some y → excl y.code = false := by
    intro t' y hy
    cases hx : excl y.code with
    | false => rfl
    | true =>
      have := atomic_unique hS.inv ht hy (by rw [hc]; exact h2) (excl_iff _ |>.1 hx).1
      subst this
      rw [ht] at hy
      obtain rfl : th = y := by simpa using hy
      rw [hc] at hx
      simp [excl, noWait] at hx
  have hG := hS.glob hall
  have hheld : ∀ i, s.sh.heldU i = none := by
    intro i
    cases hh : s.sh.heldU i with
    | none => rfl
    | some t' =>
      obtain ⟨y, hy, hy1, _⟩ := (hS.inv.heldU _ _).1 hh
      have : 0 < s.th.countP fun th => counted th.code :=
        List.countP_pos_iff.2 ⟨y, List.mem_of_getElem? hy, (hS.inv.good t' y hy).counted hy1⟩
      have := hS.inv.cnt
      omega
  have hreg := registered hS (by omega) hall
  refine hS.silent ht he hinv rfl rfl rfl hs.2 (by rw [hsh]) (by rw [hsh]) (by rw [hsh]) (by rw [hsh]; exact fun _ h => h) ?_ ?_ ?_ ?_ ?_ ?_
  · rw [hc]
    cases hop : th.op <;> rw [hop] at hs <;> first | exact hs.1.elim | simp [pend, noWait, hxc]
  · simp only [h7]; simp
  · intro hp h
    rw [hc] at h
    rw [hsh]
    cases hop : th.op with
    | atomic u body =>
      rw [hop] at h hs
      have h9 := h.1 (by simp [excl, noWait])
      have hac : acts c = acts (code (.atomic u body)) := h9.2
      refine ⟨fun h' => by simp only at h'; rw [hxc] at h'; simp at h', fun _ => ⟨?_, hG.known, Or.inl hs.1, fun _ => ⟨h9.1, hac, hG.mem⟩, ?_⟩⟩
      · intro i v hv _
        rw [hG.data i v hv (hheld i)]
        exact data_of_some (hreg v (List.mem_of_getElem? hv))
      · intro i hv
        simp only
        rw [hac, acts_code_atomic, hG.mem, hG.data i u hv (hheld i), h9.1]
        exact ⟨rfl, rfl, rfl⟩
    | clear body =>
      rw [hop] at h hs
      have h9 := h.2.1 (by simp [excl, noWait])
      refine ⟨h.1, fun h' => by simp only at h'; rw [hxc] at h'; simp at h', fun _ => ⟨?_, Or.inl hs.1⟩⟩
      have hmc : macts c = body := h9
      simp only
      rw [hmc, hG.mem]
    | _ => rw [hop] at hs; exact hs.1.elim
  · rw [hc]; simp [Decoder.quiet]
  · rw [hc]; simp [Decoder.excl, noWait]
  · rw [hc]; exact fun _ h => h

theorem quiet_not_mem {c : List (Instr M U O)} (h : quiet c = true) : (∀ u, .look u ∉ c) ∧ .reset ∉ c := by
  induction c with
  | nil => simp
  | cons i c ih => cases i <;> simp_all [Decoder.quiet]

/-- The commit of an operation that excludes the others. -/
theorem ser_commit {m : Mtx} (hS : SInv initU ops A0 s l A) (ht : s.th[t]? = some th) (hc : th.code = .unlock m :: c)
    (hth : th' = { th with code := c }) (hsh : s'.sh = { s.sh with held := upd s.sh.held m none })
    (he : s'.th = (s.th.map (w b)).set t th') (hinv : Inv s') (hx : excl (.unlock m :: c) = true) (hx' : excl c = false) :
    ∃ l1 A', SInv initU ops A0 s' (l ++ l1) A' := by
  have hg := hS.inv.good t th ht
  have hs := hS.shape t th ht
  rw [hc] at hg hs
  obtain ⟨⟨h1, h2⟩, _⟩ := hg
  have hq := h2 hx hx'
  obtain ⟨q1, q2, q3⟩ := quiet_acts hq
  obtain ⟨q4, q5⟩ := quiet_not_mem hq
  have hnw : noWait c = true := (excl_iff _ |>.1 hx).2.2
  subst hth
  have hidle : ∀ (t' : Nat) (y : Thread M U O), t' ≠ t → s.th[t']? = some y → _ := fun t' y hne hy =>
    idle_other hS ht (by rw [hc]; exact hx) (t' := t') (y := y) hne hy
  refine ⟨[(t, (Decoder.seq initU th.op A).2)], (Decoder.seq initU th.op A).1, ?_⟩
  have hnn : Decoder.needs c = false := quiet_needs hq
  cases hop : th.op with
  | atomic u body =>
    have hp : pend th.op th.code := by rw [hop, hc]; exact Or.inr hx
    have hnp : ¬ pend th.op c := by rw [hop]; simp [pend, hnw, hx']
    have hT := hS.threads t th ht hp
    rw [hop, hc] at hT
    obtain ⟨e1, e2, e3, e4, e5⟩ := hT.2 hx
    have hu : u ∈ s.sh.users := by
      rcases e3 with h | h
      · have : Instr.look u ∈ c := by simpa using h
        exact absurd this (q4 u)
      · exact h
    obtain ⟨i, hi⟩ := List.getElem?_of_mem hu
    have ha : acts (Instr.unlock m :: c) = [] := q1
    obtain ⟨e6, e7, e8⟩ := e5 i hi
    rw [ha] at e6 e7 e8
    simp only [runActs, List.append_nil] at e6 e7 e8
    rw [← hop]
    refine hS.advance (l' := l ++ [(t, (Decoder.seq initU th.op A).2)]) ht he hinv rfl hs.2 (Or.inr ⟨hp, hnp, rfl, rfl, ?_⟩) (by rw [hsh]; exact hS.nodup) ?_ ?_ ?_ ?_ ?_ ?_ ?_
    · rw [hop]; exact e8
    · intro h; rw [hnn] at h; simp at h
    · intro t' y hne hy h
      rw [(hidle t' y hne hy).2.2.1] at h; simp at h
    · intro h; exact absurd h hnp
    · intro t' y hne hy h
      exact h.idle (hidle t' y hne hy).1 (hidle t' y hne hy).2.1
    · intro _; exact hq
    · intro _ _
      rw [hop, hsh]
      refine ⟨e6, ?_, ?_⟩
      · intro v hv
        simp only [Decoder.seq, upd] at hv
        split at hv
        · rename_i h; rw [h]; exact hu
        · exact e2 v hv
      · intro j v hv _
        by_cases hvu : v = u
        · subst hvu
          obtain ⟨_, e7', _⟩ := e5 j hv
          rw [ha] at e7'
          simp only [Abs.data, Decoder.seq, upd, if_true, Option.getD_some]
          exact e7'
        · simp only [Abs.data, Decoder.seq, upd, hvu, if_false]
          rw [e1 j v hv hvu]; rfl
    · intro v hv
      rw [hsh] at hv
      left
      rw [hop]
      simp only [Decoder.seq, upd]
      split
      · simp
      · rename_i hvu
        obtain ⟨j, hj⟩ := List.getElem?_of_mem hv
        rw [e1 j v hj hvu]; simp
  | clear body =>
    have hp : pend th.op th.code := by rw [hop, hc]; exact Or.inr hx
    have hnp : ¬ pend th.op c := by rw [hop]; simp [pend, hnw, hx']
    have hT := hS.threads t th ht hp
    rw [hop, hc] at hT
    obtain ⟨e0, _, e1⟩ := hT
    obtain ⟨e2, e3⟩ := e1 hx
    have hu : s.sh.users = [] := by
      rcases e3 with h | h
      · exact absurd (by simpa using h) q5
      · exact h
    have ha : macts (Instr.unlock m :: c) = [] := q3
    rw [ha] at e2
    simp only [List.foldl_nil] at e2
    rw [← hop]
    refine hS.advance (l' := l ++ [(t, (Decoder.seq initU th.op A).2)]) ht he hinv rfl hs.2 (Or.inr ⟨hp, hnp, rfl, rfl, ?_⟩) (by rw [hsh]; exact hS.nodup) ?_ ?_ ?_ ?_ ?_ ?_ ?_
    · rw [hop]; exact e0
    · intro h; rw [hnn] at h; simp at h
    · intro t' y hne hy h
      rw [(hidle t' y hne hy).2.2.1] at h; simp at h
    · intro h; exact absurd h hnp
    · intro t' y hne hy h
      exact h.idle (hidle t' y hne hy).1 (hidle t' y hne hy).2.1
    · intro _; exact hq
    · intro _ _
      rw [hop, hsh]
      refine ⟨e2, ?_, ?_⟩
      · intro v hv; simp [Decoder.seq] at hv
      · intro j v hv _
        simp only [hu] at hv
        simp at hv
    · intro v hv
      rw [hsh] at hv
      simp only [hu] at hv
      simp at hv
  | session u body =>
    rw [hop] at hs
    have : ∀ c' : List (Instr M U O), Shape (.session u body) c' → holds .atomicOp c' = false := by
      intro c'
      induction c' with
      | nil => intro _; rfl
      | cons i c' ih =>
        rintro ⟨h3, h4⟩
        cases i <;> simp_all [holds, allowed]
    have h3 := this _ hs
    simp [excl, h3] at hx
  | print body =>
    rw [hop] at hs
    obtain ⟨⟨rfl, rfl⟩, _⟩ := hs
    simp [excl, holds] at hx
  | initError u body => rw [hop] at hs; exact hs.1.elim
  | release u => rw [hop] at hs; exact hs.1.elim

theorem ser_unlock {m : Mtx} (hS : SInv initU ops A0 s l A) (ht : s.th[t]? = some th) (hc : th.code = .unlock m :: c)
    (hth : th' = { th with code := c }) (hsh : s'.sh = { s.sh with held := upd s.sh.held m none })
    (he : s'.th = (s.th.map (w b)).set t th') (hinv : Inv s') : ∃ l1 A', SInv initU ops A0 s' (l ++ l1) A' := by
  by_cases hcom : excl (.unlock m :: c) = true ∧ excl c = false
  · exact ser_commit hS ht hc hth hsh he hinv hcom.1 hcom.2
  have hx : excl (.unlock m :: c) = excl c := by
    cases h : excl c with
    | true => exact excl_unlock_of h
    | false =>
      cases h' : excl (.unlock m :: c) with
      | true => exact absurd ⟨h', h⟩ hcom
      | false => rfl
  have hg := hS.inv.good t th ht
  have hs := hS.shape t th ht
  rw [hc] at hg hs
  have hTI := hS.threads t th ht
  cases hop : th.op with
  | print body =>
    subst hth
    rw [hop] at hs
    obtain ⟨⟨rfl, rfl⟩, _⟩ := hs
    have hp : pend th.op th.code := by rw [hop, hc]; simp [pend]
    have hnp : ¬ pend th.op ([] : List (Instr M U O)) := by rw [hop]; simp [pend]
    have hT := hTI hp
    rw [hop, hc] at hT
    have e1 := hT.2 (by simp [holds])
    simp only [peeks, List.map_nil, List.append_nil] at e1
    refine ⟨[(t, (Decoder.seq initU th.op A).2)], (Decoder.seq initU th.op A).1, ?_⟩
    have hA : (Decoder.seq initU th.op A).1 = A := by rw [hop]; rfl
    refine hS.advance (l' := l ++ [(t, (Decoder.seq initU th.op A).2)]) ht he hinv rfl trivial (Or.inr ⟨hp, hnp, rfl, rfl, ?_⟩) (by rw [hsh]; exact hS.nodup) ?_ ?_ ?_ ?_ ?_ ?_ ?_
    · rw [hop]; exact e1
    · intro h; simp [Decoder.needs] at h
    · intro t' y hne hy h; rw [hsh]
    · intro h; exact absurd h hnp
    · intro t' y hne hy h
      rw [hA, hsh]; exact h
    · intro _; rfl
    · intro _ h2
      rw [hA]
      have hG := hS.glob (by
        intro t' y hy
        by_cases hne : t' = t
        · subst hne
          rw [ht] at hy
          obtain rfl : th = y := by simpa using hy
          rw [hc, hx]; rfl
        · exact h2 t' y hne hy)
      rw [hsh]
      exact ⟨hG.mem, hG.known, hG.data⟩
    · intro v hv
      rw [hsh] at hv
      rw [hA]
      rcases hS.reg v hv with h | ⟨t', y, hy, h1, h2, h3⟩
      · exact Or.inl h
      · by_cases hne : t' = t
        · subst hne
          rw [ht] at hy
          obtain rfl : th = y := by simpa using hy
          rw [hop] at h1
          simp [Op.user] at h1
        · exact Or.inr (Or.inr ⟨t', y, hne, hy, h1, h2, h3⟩)
  | initError u body => rw [hop] at hs; exact hs.1.elim
  | release u => rw [hop] at hs; exact hs.1.elim
  | _ =>
    refine ⟨[], A, ?_⟩
    rw [List.append_nil]
    subst hth
    refine hS.silent ht he hinv rfl rfl rfl hs.2 (by rw [hsh]) (by rw [hsh]) (by rw [hsh]) (by rw [hsh]; exact fun _ h => h) ?_ ?_ ?_ ?_ ?_ ?_
    · rw [hc, hop]
      simp [pend, noWait, hx]
    · rw [hc]; exact id
    · intro hp h
      rw [hc, hop] at h
      rw [hop, hsh]
      simp only [TI, hx] at h ⊢
      simpa [acts, macts, inUser] using h
    · rw [hc]; exact id
    · rw [hc, hx]; exact id
    · rw [hc]; exact fun _ h => h

end

end Thot.Decoder
