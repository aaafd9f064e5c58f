import Verif.Decoder.SerStep

namespace Thot.Decoder

variable {M U O : Type}

variable {initU : M → U} {ops : List (Op M U O)} {A0 : Abs M U} {s s' : St M U O} {l : List (Nat × List O)} {A : Abs M U}
  {t : Nat} {th th' : Thread M U O} {b : Bool} {c : List (Instr M U O)}

theorem nodup_getElem?_inj {α : Type} {l : List α} (h : l.Nodup) {i j : Nat} {a : α} (hi : l[i]? = some a) (hj : l[j]? = some a) : i = j := by
  obtain ⟨hi', hi⟩ := List.getElem?_eq_some_iff.1 hi
  obtain ⟨hj', hj⟩ := List.getElem?_eq_some_iff.1 hj
  exact (List.getElem_inj h).1 (hi.trans hj.symm)

theorem idxOf_getElem? {l : List User} {u : User} (h : u ∈ l) : l[l.idxOf u]? = some u := by
  have hlt := List.idxOf_lt_length_of_mem h
  rw [List.getElem?_eq_getElem hlt]
  simp [List.getElem_idxOf hlt]

theorem no_excl (hS : SInv initU ops A0 s l A) (ht : s.th[t]? = some th) (hct : counted th.code = true) :
    ∀ (t' : Nat) (y : Thread M U O), s.th[t']? = some y → excl y.code = false := by
  intro t' y hy
  cases hx : excl y.code with
  | false => rfl
  | true => exact (not_both hS.inv ht hy hct hx).elim

theorem ser_unlockUser (hS : SInv initU ops A0 s l A) (ht : s.th[t]? = some th) (hc : th.code = .unlockUser :: c)
    (hth : th' = { th with code := c }) (hsh : s'.sh = { s.sh with heldU := upd s.sh.heldU th.reg none })
    (he : s'.th = (s.th.map (w b)).set t th') (hinv : Inv s') : ∃ l1 A', SInv initU ops A0 s' (l ++ l1) A' := by
  have hg := hS.inv.good t th ht
  have hs := hS.shape t th ht
  have hn := hS.needs t th ht
  rw [hc] at hg hs hn
  obtain ⟨u, hu, hreg⟩ := hn rfl
  obtain ⟨⟨h1, h2, h3⟩, _⟩ := hg
  have hct : counted th.code = true := by rw [hc]; exact h2
  have hG := hS.glob (no_excl hS ht hct)
  subst hth
  cases hop : th.op with
  | session v body =>
    rw [hop] at hs hu
    obtain rfl : v = u := by simpa [Op.user] using hu
    have hp : pend th.op th.code := by rw [hop, hc]; simp [pend]
    have hnp : ¬ pend th.op c := by rw [hop]; exact hs.1
    have hT := hS.threads t th ht hp
    rw [hop, hc] at hT
    obtain ⟨e1, e2⟩ := hT.2 rfl
    have ha : acts (Instr.unlockUser :: c) = [] := (quiet_acts h3).1
    rw [ha] at e1 e2
    simp only [runActs, List.append_nil] at e1 e2
    have hAm : (Decoder.seq initU (.session v body : Op M U O) A).1.mem = A.mem := rfl
    have hdat : ∀ v', v' ≠ v → (Decoder.seq initU (.session v body : Op M U O) A).1.data initU v' = A.data initU v' := by
      intro v' hv'
      simp [Abs.data, Decoder.seq, upd, hv']
    refine ⟨[(t, (Decoder.seq initU th.op A).2)], (Decoder.seq initU th.op A).1, ?_⟩
    refine hS.advance (l' := l ++ [(t, (Decoder.seq initU th.op A).2)]) ht he hinv rfl (by rw [hop]; exact hs.2) (Or.inr ⟨hp, hnp, rfl, rfl, ?_⟩)
      (by rw [hsh]; exact hS.nodup) ?_ ?_ ?_ ?_ ?_ ?_ ?_
    · rw [hop]; exact e2
    · intro h; rw [quiet_needs h3] at h; simp at h
    · intro t' y hne hy h; rw [hsh]
    · intro h; exact absurd h hnp
    · intro t' y hne hy h
      rw [hop]
      refine h.other (no_excl hS ht hct t' y hy) (by rw [hsh]) hAm ?_
      intro hiu
      refine ⟨by rw [hsh], ?_⟩
      intro u' hu'
      apply hdat
      rintro rfl
      obtain ⟨u2, hu2, hr2⟩ := hS.needs t' y hy ((hS.inv.good t' y hy).inUser_needs hiu)
      rw [hu'] at hu2
      obtain rfl : u' = u2 := by simpa using hu2
      have hr := nodup_getElem?_inj hS.nodup hr2 hreg
      have e3 : s.sh.heldU th.reg = some t' := (hS.inv.heldU _ _).2 ⟨y, hy, hiu, hr⟩
      have e4 : s.sh.heldU th.reg = some t := (hS.inv.heldU _ _).2 ⟨th, ht, by rw [hc]; rfl, rfl⟩
      rw [e3] at e4
      exact hne (by simpa using e4)
    · intro _; exact h3
    · intro _ _
      rw [hop, hsh]
      refine ⟨hG.mem, ?_, ?_⟩
      · intro v' hv'
        simp only [Decoder.seq, upd] at hv'
        split at hv'
        · rename_i h; rw [h]; exact List.mem_of_getElem? hreg
        · exact hG.known v' hv'
      · intro j v' hv' hh
        simp only at hv' hh ⊢
        by_cases hvu : v' = v
        · subst hvu
          obtain rfl := nodup_getElem?_inj hS.nodup hv' hreg
          rw [e1]
          simp [Abs.data, Decoder.seq, upd]
        · rw [hdat v' hvu]
          refine hG.data j v' hv' ?_
          have : j ≠ th.reg := by
            rintro rfl
            rw [hreg] at hv'
            exact hvu (by simpa using hv'.symm)
          simpa [upd, this] using hh
    · intro v' hv'
      rw [hsh] at hv'
      rw [hop]
      by_cases hvu : v' = v
      · left; simp [Decoder.seq, upd, hvu]
      · rcases hS.reg v' hv' with h | ⟨t', y, hy, h1, h2, h3⟩
        · left; simpa [Decoder.seq, upd, hvu] using h
        · by_cases hne : t' = t
          · subst hne
            rw [ht] at hy
            obtain rfl : th = y := by simpa using hy
            rw [hop] at h1
            exact absurd (by simpa [Op.user] using h1.symm) hvu
          · exact Or.inr (Or.inr ⟨t', y, hne, hy, h1, h2, h3⟩)
  | _ => rw [hop] at hs; exact hs.1.elim

theorem shape_atomic_counted {u : User} {body : List (Item M U O)} {c : List (Instr M U O)} (h : Shape (.atomic u body) c) :
    counted c = false := by
  induction c with
  | nil => rfl
  | cons i c ih =>
    obtain ⟨h1, h2⟩ := h
    cases i <;> simp_all [counted, allowed]

theorem shape_session_excl {u : User} {body : List (UItem M U O)} {c : List (Instr M U O)} (h : Shape (.session u body) c) :
    excl c = false := by
  have : holds .atomicOp c = false := by
    induction c with
    | nil => rfl
    | cons i c ih =>
      obtain ⟨h1, h2⟩ := h
      cases i <;> simp_all [holds, allowed]
  simp [excl, this]

theorem ser_look_known {u : User} (hS : SInv initU ops A0 s l A) (ht : s.th[t]? = some th) (hc : th.code = .look u :: c)
    (hu : u ∈ s.sh.users)
    (hth : th' = { th with code := c, reg := s.sh.users.idxOf u }) (hsh : s'.sh = s.sh)
    (he : s'.th = (s.th.map (w b)).set t th') (hinv : Inv s') : SInv initU ops A0 s' l A := by
  have hg := hS.inv.good t th ht
  have hs := hS.shape t th ht
  rw [hc] at hg hs
  obtain ⟨h1, h2, h3⟩ := hg.1
  have hx : excl (.look u :: c) = excl c := rfl
  have huser : th.op.user = some u := by
    cases hop : th.op <;> rw [hop] at hs <;> first | exact hs.1.elim | exact congrArg some hs.1.symm | exact congrArg some hs.1.1.symm
  subst hth
  have hpend : pend th.op c ↔ pend th.op th.code := by
    rw [hc]
    cases hop : th.op <;> rw [hop] at hs <;> first | exact hs.1.elim | simp [pend, noWait, hx]
  have hp : pend th.op c := by
    cases hop : th.op <;> rw [hop] at hs <;> first | exact hs.1.elim | skip
    · rcases h3 with h3 | h3
      · rw [shape_atomic_counted hs.2] at h3; simp at h3
      · exact Or.inr h3
    · exact hs.1.2
  refine hS.advance ht he hinv rfl hs.2 (Or.inl ⟨rfl, rfl, hpend, fun _ => rfl⟩) (by rw [hsh]; exact hS.nodup) ?_ ?_ ?_ ?_ ?_ ?_ ?_
  · intro _
    rw [hsh]
    exact ⟨u, huser, idxOf_getElem? hu⟩
  · intro t' y _ _ _; rw [hsh]
  · intro _
    have hT := hS.threads t th ht (hpend.1 hp)
    rw [hsh]
    rw [hc] at hT
    cases hop : th.op with
    | session v body =>
      rw [hop] at hT
      exact ⟨hT.1, fun h => by rw [h2] at h; simp at h⟩
    | atomic v body =>
      rw [hop] at hT hs
      obtain rfl : u = v := hs.1
      refine ⟨hT.1, fun h => ?_⟩
      obtain ⟨e1, e2, e3, e4, e5⟩ := hT.2 h
      exact ⟨e1, e2, Or.inr hu, e4, e5⟩
    | _ => rw [hop] at hs; exact hs.1.elim
  · intro t' y _ _ h; rw [hsh]; exact h
  · intro h; exact absurd hp h
  · intro h1 h2
    rw [hsh]
    refine hS.glob ?_
    intro t' y hy
    by_cases hne : t' = t
    · subst hne
      rw [ht] at hy
      obtain rfl : th = y := by simpa using hy
      rw [hc]; exact h1
    · exact h2 t' y hne hy
  · intro v hv
    rw [hsh] at hv
    rcases hS.reg v hv with h | ⟨t', y, hy, h1, h2, h4⟩
    · exact Or.inl h
    · by_cases hne : t' = t
      · subst hne
        rw [ht] at hy
        obtain rfl : th = y := by simpa using hy
        exact Or.inr (Or.inl ⟨h1, hp, h3⟩)
      · exact Or.inr (Or.inr ⟨t', y, hne, hy, h1, h2, h4⟩)

theorem ser_look_new {u : User} (hS : SInv initU ops A0 s l A) (ht : s.th[t]? = some th) (hc : th.code = .look u :: c)
    (hu : u ∉ s.sh.users)
    (hth : th' = { th with code := c, reg := s.sh.users.length })
    (hsh : s'.sh = { s.sh with users := s.sh.users ++ [u], umem := upd s.sh.umem s.sh.users.length (initU s.sh.mem) })
    (he : s'.th = (s.th.map (w b)).set t th') (hinv : Inv s') : SInv initU ops A0 s' l A := by
  have hg := hS.inv.good t th ht
  have hs := hS.shape t th ht
  rw [hc] at hg hs
  obtain ⟨h1, h2, h3⟩ := hg.1
  have hx : excl (.look u :: c) = excl c := rfl
  have huser : th.op.user = some u := by
    cases hop : th.op <;> rw [hop] at hs <;> first | exact hs.1.elim | exact congrArg some hs.1.symm | exact congrArg some hs.1.1.symm
  subst hth
  have hpend : pend th.op c ↔ pend th.op th.code := by
    rw [hc]
    cases hop : th.op <;> rw [hop] at hs <;> first | exact hs.1.elim | simp [pend, noWait, hx]
  have hp : pend th.op c := by
    cases hop : th.op <;> rw [hop] at hs <;> first | exact hs.1.elim | skip
    · rcases h3 with h3 | h3
      · rw [shape_atomic_counted hs.2] at h3; simp at h3
      · exact Or.inr h3
    · exact hs.1.2
  have hold : ∀ (i : Nat) (v : User), (s.sh.users ++ [u])[i]? = some v → s.sh.users[i]? = some v ∨ (i = s.sh.users.length ∧ v = u) := by
    intro i v h
    rw [List.getElem?_append] at h
    split at h
    · exact Or.inl h
    · rename_i hle
      have : i - s.sh.users.length = 0 := by
        rcases hd : i - s.sh.users.length with _ | k
        · rfl
        · rw [hd] at h; simp at h
      rw [this] at h
      exact Or.inr ⟨by omega, by simpa using h.symm⟩
  have hlt : ∀ (i : Nat) (v : User), s.sh.users[i]? = some v → i < s.sh.users.length := fun i v h => (List.getElem?_eq_some_iff.1 h).1
  have humem : ∀ (i : Nat) (v : User), s.sh.users[i]? = some v → upd s.sh.umem s.sh.users.length (initU s.sh.mem) i = s.sh.umem i := by
    intro i v h
    have := hlt i v h
    simp only [upd]; split
    · omega
    · rfl
  refine hS.advance ht he hinv rfl hs.2 (Or.inl ⟨rfl, rfl, hpend, fun _ => rfl⟩) ?_ ?_ ?_ ?_ ?_ ?_ ?_ ?_
  · rw [hsh, List.nodup_append]
    refine ⟨hS.nodup, by simp, ?_⟩
    intro a ha d hd
    rintro rfl
    simp only [List.mem_singleton] at hd
    subst hd; exact hu ha
  · intro _
    rw [hsh]
    exact ⟨u, huser, by simp⟩
  · intro t' y hne hy hn
    obtain ⟨v, hv, hr⟩ := hS.needs t' y hy hn
    rw [hsh, hr]
    simp only [List.getElem?_append_left (hlt _ _ hr), hr]
  · intro _
    have hT := hS.threads t th ht (hpend.1 hp)
    rw [hsh]
    rw [hc] at hT
    cases hop : th.op with
    | session v body =>
      rw [hop] at hT
      exact ⟨hT.1, fun h => by rw [h2] at h; simp at h⟩
    | atomic v body =>
      rw [hop] at hT hs
      obtain rfl : u = v := hs.1
      refine ⟨hT.1, fun h => ?_⟩
      obtain ⟨e1, e2, e3, e4, e5⟩ := hT.2 h
      obtain ⟨f1, f2, f3⟩ := e4 hu
      have f2' : acts c = acts (code (.atomic u body)) := f2
      refine ⟨?_, fun v hv => List.mem_append_left _ (e2 v hv), Or.inr (by simp), fun h => absurd (by simp) h, ?_⟩
      · intro i v hv hvu
        rcases hold i v hv with h' | ⟨_, rfl⟩
        · exact (e1 i v h' hvu).trans (congrArg some (humem i v h').symm)
        · exact absurd rfl hvu
      · intro i hi
        rcases hold i u hi with h' | ⟨rfl, _⟩
        · exact absurd (List.mem_of_getElem? h') hu
        · have hnone : A.us u = none := by
            cases h' : A.us u with
            | none => rfl
            | some x => exact absurd (e2 u (by simp [h'])) hu
          have hd : A.data initU u = initU A.mem := by simp [Abs.data, hnone]
          simp only [upd, if_true]
          rw [f1, f2', acts_code_atomic, f3, hd]
          exact ⟨rfl, rfl, rfl⟩
    | _ => rw [hop] at hs; exact hs.1.elim
  · intro t' y hne hy h
    rcases h3 with h3 | h3
    · refine h.other (no_excl hS ht (by rw [hc]; exact h3) t' y hy) (by rw [hsh]) rfl ?_
      intro hiu
      refine ⟨?_, fun _ _ => rfl⟩
      obtain ⟨v, hv, hr⟩ := hS.needs t' y hy ((hS.inv.good t' y hy).inUser_needs hiu)
      rw [hsh]; exact humem _ _ hr
    · have := idle_other hS ht (by rw [hc]; exact h3) hne hy
      exact h.idle this.1 this.2.1
  · intro h; exact absurd hp h
  · intro h1 h2
    have hG := hS.glob (by
      intro t' y hy
      by_cases hne : t' = t
      · subst hne
        rw [ht] at hy
        obtain rfl : th = y := by simpa using hy
        rw [hc]; exact h1
      · exact h2 t' y hne hy)
    rw [hsh]
    refine ⟨hG.mem, fun v hv => List.mem_append_left _ (hG.known v hv), ?_⟩
    intro i v hv hh
    rcases hold i v hv with h' | ⟨rfl, rfl⟩
    · rw [← hG.data i v h' hh]; exact humem i v h'
    · have hnone : A.us v = none := by
        cases h' : A.us v with
        | none => rfl
        | some x => exact absurd (hG.known v (by simp [h'])) hu
      simp [upd, Abs.data, hnone, hG.mem]
  · intro v hv
    rw [hsh] at hv
    rcases List.mem_append.1 hv with hv | hv
    · rcases hS.reg v hv with h | ⟨t', y, hy, h1, h2, h4⟩
      · exact Or.inl h
      · by_cases hne : t' = t
        · subst hne
          rw [ht] at hy
          obtain rfl : th = y := by simpa using hy
          exact Or.inr (Or.inl ⟨h1, hp, h3⟩)
        · exact Or.inr (Or.inr ⟨t', y, hne, hy, h1, h2, h4⟩)
    · obtain rfl : v = u := by simpa using hv
      exact Or.inr (Or.inl ⟨huser, hp, h3⟩)

/-- The steps of an operation that excludes the others. -/
theorem ser_excl_step {i : Instr M U O} (hS : SInv initU ops A0 s l A) (ht : s.th[t]? = some th) (hc : th.code = i :: c)
    (hop : th'.op = th.op) (hcode : th'.code = c)
    (he : s'.th = (s.th.map (w b)).set t th') (hinv : Inv s') (hx : excl (i :: c) = true) (hx' : excl c = true)
    (hpo : pend th.op th.code) (hpn : pend th.op c)
    (hnd : s'.sh.users.Nodup)
    (hn : needs c = true → ∃ u, th.op.user = some u ∧ s'.sh.users[th'.reg]? = some u)
    (hT : TI initU A s.sh th.op (i :: c) th.reg th.out → TI initU A s'.sh th.op c th'.reg th'.out)
    (hus : ∀ v ∈ s'.sh.users, v ∈ s.sh.users) :
    SInv initU ops A0 s' l A := by
  have hidle : ∀ (t' : Nat) (y : Thread M U O), t' ≠ t → s.th[t']? = some y → _ := fun t' y hne hy =>
    idle_other hS ht (by rw [hc]; exact hx) (t' := t') (y := y) hne hy
  have hs := hS.shape t th ht
  rw [hc] at hs
  refine hS.advance ht he hinv hop (by rw [hcode]; exact hs.2) (Or.inl ⟨rfl, rfl, ?_, ?_⟩) hnd ?_ ?_ ?_ ?_ ?_ ?_ ?_
  · rw [hcode]; exact ⟨fun _ => hpo, fun _ => hpn⟩
  · exact fun h => absurd hpo h
  · rw [hcode]; exact hn
  · intro t' y hne hy h
    rw [(hidle t' y hne hy).2.2.1] at h; simp at h
  · intro _
    rw [hcode]
    refine hT ?_
    rw [← hc]
    exact hS.threads t th ht hpo
  · intro t' y hne hy h
    exact h.idle (hidle t' y hne hy).1 (hidle t' y hne hy).2.1
  · rw [hcode]; exact fun h => absurd hpn h
  · rw [hcode, hx']; simp
  · intro v hv
    rcases hS.reg v (hus v hv) with h | ⟨t', y, hy, h1, h2, h4⟩
    · exact Or.inl h
    · by_cases hne : t' = t
      · subst hne
        rw [ht] at hy
        obtain rfl : th = y := by simpa using hy
        exact Or.inr (Or.inl ⟨h1, by rw [hcode]; exact hpn, by rw [hcode]; exact Or.inr hx'⟩)
      · exact Or.inr (Or.inr ⟨t', y, hne, hy, h1, h2, h4⟩)

theorem ser_mact {f : M → M} (hS : SInv initU ops A0 s l A) (ht : s.th[t]? = some th) (hc : th.code = .mact f :: c)
    (hth : th' = { th with code := c }) (hsh : s'.sh = { s.sh with mem := f s.sh.mem })
    (he : s'.th = (s.th.map (w b)).set t th') (hinv : Inv s') : SInv initU ops A0 s' l A := by
  have hg := hS.inv.good t th ht
  have hs := hS.shape t th ht
  have hn := hS.needs t th ht
  rw [hc] at hg hs hn
  have h1 : excl c = true := hg.1
  subst hth
  cases hop : th.op with
  | clear body =>
    rw [hop] at hs
    have hx : excl (.mact f :: c) = true := h1
    refine ser_excl_step hS ht hc (by rfl) (by rfl) he hinv hx h1 (by rw [hop, hc]; exact Or.inr hx) (by rw [hop]; exact Or.inr h1)
      (by rw [hsh]; exact hS.nodup) ?_ ?_ (by rw [hsh]; exact fun _ h => h)
    · intro h
      rw [hsh]; exact hn h
    · intro hT
      rw [hop] at hT ⊢
      rw [hsh]
      obtain ⟨e1, e2, e3⟩ := hT
      refine ⟨e1, fun h => by rw [h1] at h; simp at h, fun _ => ?_⟩
      obtain ⟨e4, e5⟩ := e3 hx
      exact ⟨e4, by simpa using e5⟩
  | _ => rw [hop] at hs; exact hs.1.elim

theorem ser_reset (hS : SInv initU ops A0 s l A) (ht : s.th[t]? = some th) (hc : th.code = .reset :: c)
    (hth : th' = { th with code := c }) (hsh : s'.sh = { s.sh with users := [], freed := [] })
    (he : s'.th = (s.th.map (w b)).set t th') (hinv : Inv s') : SInv initU ops A0 s' l A := by
  have hg := hS.inv.good t th ht
  have hs := hS.shape t th ht
  rw [hc] at hg hs
  have h1 : excl c = true := hg.1.1
  subst hth
  cases hop : th.op with
  | clear body =>
    rw [hop] at hs
    have hx : excl (.reset :: c) = true := h1
    refine ser_excl_step hS ht hc (by rfl) (by rfl) he hinv hx h1 (by rw [hop, hc]; exact Or.inr hx) (by rw [hop]; exact Or.inr h1)
      (by rw [hsh]; exact List.nodup_nil) ?_ ?_ (by rw [hsh]; simp)
    · intro h
      have : ∀ c' : List (Instr M U O), Shape (.clear body) c' → needs c' = false := by
        intro c'
        induction c' with
        | nil => intro _; rfl
        | cons i c' ih =>
          rintro ⟨h3, h4⟩
          cases i <;> simp_all [needs, allowed]
      rw [this c hs.2] at h; simp at h
    · intro hT
      rw [hop] at hT ⊢
      rw [hsh]
      obtain ⟨e1, e2, e3⟩ := hT
      refine ⟨e1, fun h => by rw [h1] at h; simp at h, fun _ => ?_⟩
      obtain ⟨e4, e5⟩ := e3 hx
      exact ⟨e4, Or.inr rfl⟩
  | _ => rw [hop] at hs; exact hs.1.elim

theorem ser_peek {f : M → O} (hS : SInv initU ops A0 s l A) (ht : s.th[t]? = some th) (hc : th.code = .peek f :: c)
    (hth : th' = { th with code := c, out := th.out ++ [f s.sh.mem] }) (hsh : s'.sh = s.sh)
    (he : s'.th = (s.th.map (w b)).set t th') (hinv : Inv s') : SInv initU ops A0 s' l A := by
  have hg := hS.inv.good t th ht
  have hs := hS.shape t th ht
  have hn := hS.needs t th ht
  rw [hc] at hg hs hn
  have h1 : holds .atomicOp c = true := hg.1
  subst hth
  cases hop : th.op with
  | print body =>
    rw [hop] at hs
    have hu : Instr.unlock .atomicOp ∈ c := by
      have : ∀ c' : List (Instr M U O), holds .atomicOp c' = true → Instr.unlock .atomicOp ∈ c' := by
        intro c'
        induction c' with
        | nil => simp [holds]
        | cons i c' ih =>
          intro h
          cases i with
          | lock m =>
            by_cases hm : m = .atomicOp
            · simp [holds, hm] at h
            · simp [holds, hm] at h; exact List.mem_cons_of_mem _ (ih h)
          | unlock m =>
            by_cases hm : m = .atomicOp
            · simp [hm]
            · simp [holds, hm] at h; exact List.mem_cons_of_mem _ (ih h)
          | _ => exact List.mem_cons_of_mem _ (ih h)
      exact this c h1
    have hpo : pend th.op th.code := by rw [hop, hc]; exact List.mem_cons_of_mem _ hu
    have hpn : pend th.op c := by rw [hop]; exact hu
    have hnx : excl c = false := by
      have : ∀ c' : List (Instr M U O), Shape (.print body) c' → holds .nonAtomic c' = false := by
        intro c'
        induction c' with
        | nil => intro _; rfl
        | cons i c' ih =>
          rintro ⟨h3, h4⟩
          cases i with
          | lock m => by_cases hm : m = .nonAtomic <;> simp [holds, hm, ih h4]
          | unlock m => obtain ⟨rfl, rfl⟩ := h3; rfl
          | peek f => exact ih h4
          | _ => exact h3.elim
      simp [excl, this c hs.2]
    have hall : ∀ (t' : Nat) (y : Thread M U O), s.th[t']? = some y → excl y.code = false := by
      intro t' y hy
      cases hx : excl y.code with
      | false => rfl
      | true =>
        have := atomic_unique hS.inv ht hy (by rw [hc]; exact h1) (excl_iff _ |>.1 hx).1
        subst this
        rw [ht] at hy
        obtain rfl : th = y := by simpa using hy
        rw [hc] at hx
        have hx : excl c = true := hx
        rw [hnx] at hx; simp at hx
    have hG := hS.glob hall
    refine hS.advance ht he hinv rfl (by rw [hop]; exact hs.2) (Or.inl ⟨rfl, rfl, ⟨fun _ => hpo, fun _ => hpn⟩, fun h => absurd hpo h⟩)
      (by rw [hsh]; exact hS.nodup) ?_ ?_ ?_ ?_ ?_ ?_ ?_
    · rw [hsh]; exact hn
    · intro t' y _ _ _; rw [hsh]
    · intro _
      have hT := hS.threads t th ht hpo
      rw [hc, hop] at hT
      rw [hop]
      refine ⟨fun h => by simp only at h; rw [h1] at h; simp at h, fun _ => ?_⟩
      have := hT.2 h1
      rw [hG.mem]
      simpa [peeks] using this
    · intro t' y _ _ h; rw [hsh]; exact h
    · intro h; exact absurd hpn h
    · intro _ _; rw [hsh]; exact hG
    · intro v hv
      rw [hsh] at hv
      rcases hS.reg v hv with h | ⟨t', y, hy, h1, h2, h4⟩
      · exact Or.inl h
      · by_cases hne : t' = t
        · subst hne
          rw [ht] at hy
          obtain rfl : th = y := by simpa using hy
          rw [hop] at h1; simp [Op.user] at h1
        · exact Or.inr (Or.inr ⟨t', y, hne, hy, h1, h2, h4⟩)
  | _ => rw [hop] at hs; exact hs.1.elim

theorem inUser_mem {c : List (Instr M U O)} (h : inUser c = true) : Instr.unlockUser ∈ c := by
  induction c with
  | nil => simp [inUser] at h
  | cons i c ih => cases i <;> simp_all [inUser]

theorem ser_act {f : M → U → M × U × O} (hS : SInv initU ops A0 s l A) (ht : s.th[t]? = some th) (hc : th.code = .act f :: c)
    (hth : th' = { th with code := c, out := th.out ++ [(f s.sh.mem (s.sh.umem th.reg)).2.2] })
    (hsh : s'.sh = { s.sh with mem := (f s.sh.mem (s.sh.umem th.reg)).1,
                               umem := upd s.sh.umem th.reg (f s.sh.mem (s.sh.umem th.reg)).2.1 })
    (he : s'.th = (s.th.map (w b)).set t th') (hinv : Inv s') : SInv initU ops A0 s' l A := by
  have hg := hS.inv.good t th ht
  have hs := hS.shape t th ht
  have hn := hS.needs t th ht
  rw [hc] at hg hs hn
  obtain ⟨u, hu, hreg⟩ := hn rfl
  subst hth
  obtain ⟨hg1, hg2⟩ := hg
  rcases hg1 with ⟨h1, h2⟩ | ⟨h1, h2⟩
  · -- a session
    have hct : counted c = true := hg2.counted h1
    have hall := no_excl hS ht (by rw [hc]; exact hct)
    have hG := hS.glob hall
    have hmem : s'.sh.mem = s.sh.mem := by rw [hsh]; exact h2 _ _
    have hheldt : s.sh.heldU th.reg = some t := (hS.inv.heldU _ _).2 ⟨th, ht, by rw [hc]; exact h1, rfl⟩
    cases hop : th.op with
    | session v body =>
      rw [hop] at hs hu
      obtain rfl : v = u := by simpa [Op.user] using hu
      have hpn : pend th.op c := by rw [hop]; exact inUser_mem h1
      have hpo : pend th.op th.code := by rw [hop, hc]; exact List.mem_cons_of_mem _ (inUser_mem h1)
      refine hS.advance ht he hinv rfl (by rw [hop]; exact hs.2) (Or.inl ⟨rfl, rfl, ⟨fun _ => hpo, fun _ => hpn⟩, fun h => absurd hpo h⟩)
        (by rw [hsh]; exact hS.nodup) ?_ ?_ ?_ ?_ ?_ ?_ ?_
      · intro _; rw [hsh]; exact ⟨v, by rw [hop]; rfl, hreg⟩
      · intro t' y _ _ _; rw [hsh]
      · intro _
        have hT := hS.threads t th ht hpo
        rw [hc, hop] at hT
        rw [hop]
        obtain ⟨e1, e2⟩ := hT.2 h1
        refine ⟨fun h => by simp only at h; rw [h1] at h; simp at h, fun _ => ?_⟩
        rw [hmem, hsh]
        simp only [acts, runActs, h2] at e1 e2
        simp only [upd, if_true]
        exact ⟨e1, by rw [List.append_assoc]; exact e2⟩
      · intro t' y hne hy h
        refine h.other (hall t' y hy) hmem rfl ?_
        intro hiu
        refine ⟨?_, fun _ _ => rfl⟩
        have hrr : y.reg ≠ th.reg := by
          intro hr
          have e3 : s.sh.heldU th.reg = some t' := (hS.inv.heldU _ _).2 ⟨y, hy, hiu, hr⟩
          rw [hheldt] at e3
          exact hne (by simpa using e3.symm)
        rw [hsh]
        simp [upd, hrr]
      · intro h; exact absurd hpn h
      · intro _ _
        refine ⟨hmem.trans hG.mem, by rw [hsh]; exact hG.known, ?_⟩
        intro i v' hv' hh
        rw [hsh] at hv' hh ⊢
        simp only at hv' hh ⊢
        have : i ≠ th.reg := by rintro rfl; rw [hheldt] at hh; simp at hh
        simp only [upd, this, if_false]
        exact hG.data i v' hv' hh
      · intro v' hv'
        rw [hsh] at hv'
        rcases hS.reg v' hv' with h | ⟨t', y, hy, h1, h2, h4⟩
        · exact Or.inl h
        · by_cases hne : t' = t
          · subst hne
            rw [ht] at hy
            obtain rfl : th = y := by simpa using hy
            exact Or.inr (Or.inl ⟨h1, hpn, Or.inl hct⟩)
          · exact Or.inr (Or.inr ⟨t', y, hne, hy, h1, h2, h4⟩)
    | atomic v body =>
      rw [hop] at hs
      rw [shape_atomic_counted hs.2] at hct; simp at hct
    | _ => rw [hop] at hs; exact hs.1.elim
  · cases hop : th.op with
    | atomic v body =>
      rw [hop] at hs hu
      obtain rfl : v = u := by simpa [Op.user] using hu
      have hx : excl (.act f :: c) = true := h2
      refine ser_excl_step hS ht hc (by rfl) (by rfl) he hinv hx h2 (by rw [hop, hc]; exact Or.inr hx) (by rw [hop]; exact Or.inr h2)
        (by rw [hsh]; exact hS.nodup) ?_ ?_ (by rw [hsh]; exact fun _ h => h)
      · intro _; rw [hsh]; exact ⟨v, by rw [hop]; rfl, hreg⟩
      · intro hT
        rw [hop] at hT ⊢
        obtain ⟨e1, e2, e3, e4, e5⟩ := hT.2 hx
        have hvu : v ∈ s.sh.users := List.mem_of_getElem? hreg
        rw [hsh]
        refine ⟨fun h => by rw [h2] at h; simp at h, fun _ => ⟨?_, e2, Or.inr hvu, fun h => absurd hvu h, ?_⟩⟩
        · intro i v' hv' hne
          have : i ≠ th.reg := by
            rintro rfl
            simp only at hv'
            rw [hreg] at hv'
            exact hne (by simpa using hv'.symm)
          simp only [upd, this, if_false]
          exact e1 i v' hv' hne
        · intro i hi
          simp only at hi
          obtain rfl := nodup_getElem?_inj hS.nodup hi hreg
          obtain ⟨f1, f2, f3⟩ := e5 _ hreg
          simp only [upd, if_true]
          refine ⟨f1, f2, ?_⟩
          rw [List.append_assoc]; exact f3
    | session v body =>
      rw [hop] at hs
      rw [shape_session_excl hs.2] at h2; simp at h2
    | _ => rw [hop] at hs; exact hs.1.elim

/-- A step preserves the invariant; the operations that take effect are added at the end. -/
theorem ser_step (hS : SInv initU ops A0 s l A) (h : step initU s t = some s') : ∃ l1 A', SInv initU ops A0 s' (l ++ l1) A' := by
  have hinv := hS.inv.step h
  obtain ⟨th, th', b, ht, hs, he⟩ := step_spec h
  have triv : SInv initU ops A0 s' l A → ∃ l1 A', SInv initU ops A0 s' (l ++ l1) A' := fun h => ⟨[], A, by rw [List.append_nil]; exact h⟩
  unfold tstep at hs
  split at hs
  · exact absurd hs (by simp)
  · split at hs
    · simp only [Option.some.injEq, Prod.mk.injEq] at hs
      exact triv (ser_woken hS ht hs.2.1.symm hs.1.symm he hinv)
    · exact absurd hs (by simp)
  · split at hs
    · exact absurd hs (by simp)
    · rename_i i c hc
      cases i with
      | lock m =>
        simp only [exec] at hs
        split at hs
        · simp only [Option.some.injEq, Prod.mk.injEq] at hs
          exact triv (ser_lock hS ht hc hs.2.1.symm hs.1.symm he hinv)
        · exact absurd hs (by simp)
      | unlock m =>
        simp only [exec, Option.some.injEq, Prod.mk.injEq] at hs
        exact ser_unlock hS ht hc hs.2.1.symm hs.1.symm he hinv
      | lockUser =>
        simp only [exec] at hs
        split at hs
        · rename_i hf
          simp only [Option.some.injEq, Prod.mk.injEq] at hs
          exact triv (ser_lockUser hS ht hc hf hs.2.1.symm hs.1.symm he hinv)
        · exact absurd hs (by simp)
      | unlockUser =>
        simp only [exec, Option.some.injEq, Prod.mk.injEq] at hs
        exact ser_unlockUser hS ht hc hs.2.1.symm hs.1.symm he hinv
      | wait =>
        simp only [exec] at hs
        split at hs
        · simp only [Option.some.injEq, Prod.mk.injEq] at hs
          exact triv (ser_sleep hS ht hs.2.1.symm hs.1.symm he hinv)
        · rename_i hf
          simp only [Option.some.injEq, Prod.mk.injEq] at hs
          exact triv (ser_pass hS ht hc hf hs.2.1.symm hs.1.symm he hinv)
      | inc =>
        simp only [exec, Option.some.injEq, Prod.mk.injEq] at hs
        exact triv (ser_inc hS ht hc hs.2.1.symm hs.1.symm he hinv)
      | dec =>
        simp only [exec, Option.some.injEq, Prod.mk.injEq] at hs
        exact triv (ser_dec hS ht hc hs.2.1.symm hs.1.symm he hinv)
      | look u =>
        simp only [exec] at hs
        split at hs
        · rename_i hf
          simp only [Option.some.injEq, Prod.mk.injEq] at hs
          exact triv (ser_look_known hS ht hc hf hs.2.1.symm hs.1.symm he hinv)
        · rename_i hf
          simp only [Option.some.injEq, Prod.mk.injEq] at hs
          exact triv (ser_look_new hS ht hc hf hs.2.1.symm hs.1.symm he hinv)
      | act f =>
        simp only [exec, Option.some.injEq, Prod.mk.injEq] at hs
        exact triv (ser_act hS ht hc hs.2.1.symm hs.1.symm he hinv)
      | peek f =>
        simp only [exec, Option.some.injEq, Prod.mk.injEq] at hs
        exact triv (ser_peek hS ht hc hs.2.1.symm hs.1.symm he hinv)
      | mact f =>
        simp only [exec, Option.some.injEq, Prod.mk.injEq] at hs
        exact triv (ser_mact hS ht hc hs.2.1.symm hs.1.symm he hinv)
      | reset =>
        simp only [exec, Option.some.injEq, Prod.mk.injEq] at hs
        exact triv (ser_reset hS ht hc hs.2.1.symm hs.1.symm he hinv)
      | release u =>
        have := hS.inv.good t th ht
        rw [hc] at this
        exact this.1.elim

end Thot.Decoder
