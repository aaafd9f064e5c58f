import Verif.Decoder.Static

/-! The invariant of the mutexes and of the counter. -/

namespace Thot.Decoder

variable {M U O : Type}

/-- The thread holds the mutex (`pthread_cond_wait` releases `non_atomic_op_mut`). -/
def H (m : Mtx) (th : Thread M U O) : Prop := holds m th.code = true ∧ (m = .nonAtomic → th.mode = .run)

/-- What an execution of safe operations preserves. -/
structure Inv (s : St M U O) : Prop where
  good : ∀ (t : Nat) (th : Thread M U O), s.th[t]? = some th → Good th.code
  held : ∀ (t : Nat) (m : Mtx), s.sh.held m = some t ↔ ∃ th, s.th[t]? = some th ∧ H m th
  heldU : ∀ (t i : Nat), s.sh.heldU i = some t ↔ ∃ th, s.th[t]? = some th ∧ inUser th.code = true ∧ th.reg = i
  cnt : s.sh.cnt = (s.th.countP fun th => counted th.code : Nat)
  waiting : ∀ (t : Nat) (th : Thread M U O), s.th[t]? = some th → th.mode ≠ .run → ∃ c, th.code = .wait :: c
  asleep : ∀ (t : Nat) (th : Thread M U O), s.th[t]? = some th → th.mode = .asleep → 0 < s.sh.cnt
  excl : ∀ (t : Nat) (th : Thread M U O), s.th[t]? = some th → excl th.code = true → s.sh.cnt = 0

/-- What one step does, seen from the thread. -/
structure Local (sh : Shared M U) (t : Nat) (th : Thread M U O) (sh' : Shared M U) (th' : Thread M U O) (b : Bool) : Prop where
  good : Good th'.code
  waiting : th'.mode ≠ .run → ∃ c, th'.code = .wait :: c
  heldT : ∀ m, sh'.held m = some t ↔ H m th'
  heldO : ∀ m t', t' ≠ t → (sh'.held m = some t' ↔ sh.held m = some t')
  heldUT : ∀ i, sh'.heldU i = some t ↔ inUser th'.code = true ∧ th'.reg = i
  heldUO : ∀ i t', t' ≠ t → (sh'.heldU i = some t' ↔ sh.heldU i = some t')
  cnt : sh'.cnt + (if counted th.code = true then 1 else 0) = sh.cnt + (if counted th'.code = true then 1 else 0)
  asleep : th'.mode = .asleep → 0 < sh'.cnt
  wakes : b = false → 0 < sh.cnt → 0 < sh'.cnt
  excl : excl th'.code = true → sh'.cnt ≤ 0
  changes : sh'.cnt ≠ sh.cnt → H .nonAtomic th

theorem excl_iff (c : List (Instr M U O)) :
    excl c = true ↔ holds .atomicOp c = true ∧ holds .nonAtomic c = true ∧ noWait c = true := by
  simp [excl, and_assoc]

theorem upd_held_some (f : Mtx → Option Nat) (m m' : Mtx) (t t' : Nat) (h : f m = none) :
    upd f m (some t) m' = some t' ↔ (m' = m ∧ t = t') ∨ f m' = some t' := by
  unfold upd; split <;> simp_all

theorem upd_held_none (f : Mtx → Option Nat) (m m' : Mtx) (t' : Nat) :
    upd f m none m' = some t' ↔ m' ≠ m ∧ f m' = some t' := by
  unfold upd; split <;> simp_all

theorem local_of_tstep {initU : M → U} {sh sh' : Shared M U} {t : Nat} {th th' : Thread M U O} {b : Bool}
    (h : tstep initU sh t th = some (sh', th', b)) (hg : Good th.code) (hw : th.mode ≠ .run → ∃ c, th.code = .wait :: c)
    (hH : ∀ m, sh.held m = some t ↔ H m th) (hU : ∀ i, sh.heldU i = some t ↔ inUser th.code = true ∧ th.reg = i)
    (he : excl th.code = true → sh.cnt = 0) : Local sh t th sh' th' b := by
  unfold tstep at h
  split at h
  · exact absurd h (by simp)
  · -- woken
    rename_i hm
    split at h
    · rename_i hn
      simp only [Option.some.injEq, Prod.mk.injEq] at h
      obtain ⟨rfl, rfl, rfl⟩ := h
      obtain ⟨c, hc⟩ := hw (by rw [hm]; simp)
      have hg' := hg
      rw [hc] at hg'
      obtain ⟨⟨h1, h2, h3, h4, h5, h6, _⟩, _⟩ := hg'
      have hx : excl th.code = false := by rw [hc]; simp [excl, noWait]
      refine ⟨hg, by simp, ?_, ?_, hU, fun _ _ _ => Iff.rfl, rfl, by simp, fun _ h => h, by simp [hx], by simp⟩
      · intro m
        rw [upd_held_some _ _ _ _ _ hn, hH]
        by_cases hmm : m = .nonAtomic
        · subst hmm
          simp [H, hc, holds, h1]
        · simp [H, hmm]
      · intro m t' ht
        rw [upd_held_some _ _ _ _ _ hn]
        simp [ht.symm]
    · exact absurd h (by simp)
  · -- run
    rename_i hm
    split at h
    · exact absurd h (by simp)
    · rename_i i c hc
      rw [hc] at hg
      have hH' : ∀ m, sh.held m = some t ↔ holds m (i :: c) = true := by
        intro m; rw [hH, H, hc, hm]; simp
      rw [hc] at hU he
      obtain ⟨hi, hgc⟩ := hg
      cases i with
      | lock m =>
        simp only [exec] at h
        split at h
        · rename_i hn
          simp only [Option.some.injEq, Prod.mk.injEq] at h
          obtain ⟨rfl, rfl, rfl⟩ := h
          obtain ⟨h1, h2, h3, h4, h5⟩ := hi
          refine ⟨hgc, by simp [hm], ?_, ?_, hU, fun _ _ _ => Iff.rfl, by simp [hc, counted], by simp [hm], fun _ h => h, ?_, by simp⟩
          · intro m'
            rw [upd_held_some _ _ _ _ _ hn, hH', H]
            by_cases hmm : m' = m
            · subst hmm; simp [h1, hm]
            · simp [hmm, holds, Ne.symm hmm, hm]
          · intro m' t' ht
            rw [upd_held_some _ _ _ _ _ hn]; simp [ht.symm]
          · intro hx
            rw [he]
            · omega
            · rw [excl_iff] at hx ⊢
              by_cases hA : m = .atomicOp
              · have := h5 (Or.inl hA); rw [← Bool.not_eq_true, excl_iff] at this; exact absurd hx this
              · by_cases hN : m = .nonAtomic
                · have := h5 (Or.inr hN); rw [← Bool.not_eq_true, excl_iff] at this; exact absurd hx this
                · simpa [holds, hA, hN, noWait] using hx
        · exact absurd h (by simp)
      | unlock m =>
        simp only [exec, Option.some.injEq, Prod.mk.injEq] at h
        obtain ⟨rfl, rfl, rfl⟩ := h
        have hi : holds m c = false := hi.1
        refine ⟨hgc, by simp [hm], ?_, ?_, hU, fun _ _ _ => Iff.rfl, by simp [hc, counted], by simp [hm], fun _ h => h, ?_, by simp⟩
        · intro m'
          rw [upd_held_none, hH', H]
          by_cases hmm : m' = m
          · subst hmm; simp [hi]
          · simp [hmm, holds, Ne.symm hmm, hm]
        · intro m' t' ht
          rw [upd_held_none]
          constructor
          · exact fun h => h.2
          · intro h
            refine ⟨?_, h⟩
            rintro rfl
            have := (hH' m').2 (by simp [holds])
            rw [this] at h
            exact ht.symm (by simpa using h)
        · intro hx
          rw [he]
          · omega
          · rw [excl_iff] at hx ⊢
            simp only [holds, noWait]
            refine ⟨?_, ?_, hx.2.2⟩
            · split
              · rfl
              · exact hx.1
            · split
              · rfl
              · exact hx.2.1
      | lockUser =>
        simp only [exec] at h
        split at h
        · rename_i hn
          simp only [Option.some.injEq, Prod.mk.injEq] at h
          obtain ⟨rfl, rfl, rfl⟩ := h
          obtain ⟨h1, h2, h3⟩ := hi
          refine ⟨hgc, by simp [hm], ?_, fun _ _ _ => Iff.rfl, ?_, ?_, by simp [hc, counted], by simp [hm], fun _ h => h, ?_, by simp⟩
          · intro m'
            rw [hH', H]; simp [holds, hm]
          · intro i
            simp only [upd, h1]
            have := hU i
            by_cases hi' : i = th.reg
            · simp [hi']
            · simp [hi', Ne.symm hi', this, inUser]
          · intro i t' ht
            simp only [upd]
            split
            · rename_i hi'; subst hi'; simp [hn, ht.symm]
            · rfl
          · intro hx; rw [he (by simpa [excl, holds, noWait] using hx)]; omega
        · exact absurd h (by simp)
      | unlockUser =>
        simp only [exec, Option.some.injEq, Prod.mk.injEq] at h
        obtain ⟨rfl, rfl, rfl⟩ := h
        obtain ⟨h1, h2, _⟩ := hi
        refine ⟨hgc, by simp [hm], ?_, fun _ _ _ => Iff.rfl, ?_, ?_, by simp [hc, counted], by simp [hm], fun _ h => h, ?_, by simp⟩
        · intro m'
          rw [hH', H]; simp [holds, hm]
        · intro i
          simp only [upd, h1]
          have := hU i
          by_cases hi' : i = th.reg
          · simp [hi']
          · simp [hi', this, Ne.symm hi']
        · intro i t' ht
          simp only [upd]
          split
          · rename_i hi'; subst hi'
            have := (hU th.reg).2 ⟨by simp [inUser], rfl⟩
            simp [this, ht.symm]
          · rfl
        · intro hx; rw [he (by simpa [excl, holds, noWait] using hx)]; omega
      | wait =>
        obtain ⟨h1, h2, h3, h4, h5, h6, h7⟩ := hi
        simp only [exec] at h
        split at h
        · rename_i hn
          simp only [Option.some.injEq, Prod.mk.injEq] at h
          obtain ⟨rfl, rfl, rfl⟩ := h
          refine ⟨by rw [hc]; exact ⟨⟨h1, h2, h3, h4, h5, h6, h7⟩, hgc⟩, fun _ => ⟨c, hc⟩, ?_, ?_, by rw [hc]; exact hU, fun _ _ _ => Iff.rfl,
            rfl, fun _ => hn, fun _ h => h, by simp [hc, excl, noWait], by simp⟩
          · intro m'
            rw [upd_held_none, hH', H, hc]
            by_cases hmm : m' = .nonAtomic <;> simp [hmm]
          · intro m' t' ht
            rw [upd_held_none]
            constructor
            · exact fun h => h.2
            · intro h
              refine ⟨?_, h⟩
              rintro rfl
              have := (hH' .nonAtomic).2 (by simpa [holds] using h1)
              rw [this] at h
              exact ht.symm (by simpa using h)
        · rename_i hn
          simp only [Option.some.injEq, Prod.mk.injEq] at h
          obtain ⟨rfl, rfl, rfl⟩ := h
          refine ⟨hgc, by simp [hm], ?_, fun _ _ _ => Iff.rfl, hU, fun _ _ _ => Iff.rfl, by simp [hc, counted], by simp [hm], fun _ h => h,
            fun _ => by omega, by simp⟩
          intro m'
          rw [hH', H]; simp [holds, hm]
      | inc =>
        obtain ⟨h1, h2, h3, h4, _⟩ := hi
        simp only [exec, Option.some.injEq, Prod.mk.injEq] at h
        obtain ⟨rfl, rfl, rfl⟩ := h
        refine ⟨hgc, by simp [hm], ?_, fun _ _ _ => Iff.rfl, hU, fun _ _ _ => Iff.rfl, by simp [hc, counted, h2], by simp [hm], ?_, by simp [h4], ?_⟩
        · intro m'
          rw [hH', H]; simp [holds, hm]
        · intro _ h; simp only; omega
        · intro _; exact ⟨by rw [hc]; simpa [holds] using h1, fun _ => hm⟩
      | dec =>
        obtain ⟨h1, h2, h3, h4⟩ := hi
        simp only [exec, Option.some.injEq, Prod.mk.injEq] at h
        obtain ⟨rfl, rfl, rfl⟩ := h
        refine ⟨hgc, by simp [hm], ?_, fun _ _ _ => Iff.rfl, hU, fun _ _ _ => Iff.rfl, by simp [hc, counted, h2], by simp [hm], ?_, by simp [h4], ?_⟩
        · intro m'
          rw [hH', H]; simp [holds, hm]
        · intro hb h
          simp only [beq_eq_false_iff_ne, ne_eq] at hb ⊢
          omega
        · intro _; exact ⟨by rw [hc]; simpa [holds] using h1, fun _ => hm⟩
      | look u =>
        obtain ⟨h1, h2, h3⟩ := hi
        simp only [exec] at h
        split at h
        all_goals
          simp only [Option.some.injEq, Prod.mk.injEq] at h
          obtain ⟨rfl, rfl, rfl⟩ := h
          refine ⟨hgc, by simp [hm], ?_, fun _ _ _ => Iff.rfl, ?_, fun _ _ _ => Iff.rfl, by simp [hc, counted], by simp [hm], fun _ h => h, ?_, by simp⟩
          · intro m'
            rw [hH', H]; simp [holds, hm]
          · intro i
            rw [hU]
            simp [inUser, h2]
          · intro hx; rw [he (by simpa [excl, holds, noWait] using hx)]; omega
      | act f =>
        simp only [exec, Option.some.injEq, Prod.mk.injEq] at h
        obtain ⟨rfl, rfl, rfl⟩ := h
        refine ⟨hgc, by simp [hm], ?_, fun _ _ _ => Iff.rfl, hU, fun _ _ _ => Iff.rfl, by simp [hc, counted], by simp [hm], fun _ h => h, ?_, by simp⟩
        · intro m'
          rw [hH', H]; simp [holds, hm]
        · intro hx; rw [he (by simpa [excl, holds, noWait] using hx)]; omega
      | peek f =>
        simp only [exec, Option.some.injEq, Prod.mk.injEq] at h
        obtain ⟨rfl, rfl, rfl⟩ := h
        refine ⟨hgc, by simp [hm], ?_, fun _ _ _ => Iff.rfl, hU, fun _ _ _ => Iff.rfl, by simp [hc, counted], by simp [hm], fun _ h => h, ?_, by simp⟩
        · intro m'
          rw [hH', H]; simp [holds, hm]
        · intro hx; rw [he (by simpa [excl, holds, noWait] using hx)]; omega
      | mact f =>
        simp only [exec, Option.some.injEq, Prod.mk.injEq] at h
        obtain ⟨rfl, rfl, rfl⟩ := h
        refine ⟨hgc, by simp [hm], ?_, fun _ _ _ => Iff.rfl, hU, fun _ _ _ => Iff.rfl, by simp [hc, counted], by simp [hm], fun _ h => h, ?_, by simp⟩
        · intro m'
          rw [hH', H]; simp [holds, hm]
        · intro hx; rw [he (by simpa [excl, holds, noWait] using hx)]; omega
      | reset =>
        simp only [exec, Option.some.injEq, Prod.mk.injEq] at h
        obtain ⟨rfl, rfl, rfl⟩ := h
        refine ⟨hgc, by simp [hm], ?_, fun _ _ _ => Iff.rfl, hU, fun _ _ _ => Iff.rfl, by simp [hc, counted], by simp [hm], fun _ h => h, ?_, by simp⟩
        · intro m'
          rw [hH', H]; simp [holds, hm]
        · intro hx; rw [he (by simpa [excl, holds, noWait] using hx)]; omega
      | release u => exact hi.elim

/-- What a step of another thread does to a thread. -/
def w (b : Bool) (th : Thread M U O) : Thread M U O := if b then wake th else th

theorem w_code (b : Bool) (th : Thread M U O) : (w b th).code = th.code := by
  unfold w wake; split
  · split <;> rfl
  · rfl

theorem w_reg (b : Bool) (th : Thread M U O) : (w b th).reg = th.reg := by
  unfold w wake; split
  · split <;> rfl
  · rfl

theorem w_op (b : Bool) (th : Thread M U O) : (w b th).op = th.op := by
  unfold w wake; split
  · split <;> rfl
  · rfl

theorem w_out (b : Bool) (th : Thread M U O) : (w b th).out = th.out := by
  unfold w wake; split
  · split <;> rfl
  · rfl

theorem w_run (b : Bool) (th : Thread M U O) : (w b th).mode = .run ↔ th.mode = .run := by
  unfold w wake; split
  · split <;> simp_all
  · rfl

theorem w_asleep (b : Bool) (th : Thread M U O) (h : (w b th).mode = .asleep) : b = false ∧ th.mode = .asleep := by
  unfold w wake at h; split at h
  · split at h <;> simp_all
  · rename_i hb; exact ⟨by simpa using hb, h⟩

theorem H_w (b : Bool) (m : Mtx) (th : Thread M U O) : H m (w b th) ↔ H m th := by
  unfold H; rw [w_code, w_run]

/-- The threads after a step. -/
theorem step_spec {initU : M → U} {s s' : St M U O} {t : Nat} (h : step initU s t = some s') :
    ∃ th th' b, s.th[t]? = some th ∧ tstep initU s.sh t th = some (s'.sh, th', b) ∧
      s'.th = (s.th.map (w b)).set t th' := by
  unfold step at h
  split at h
  · exact absurd h (by simp)
  · rename_i th ht
    split at h
    · exact absurd h (by simp)
    · rename_i sh th' b hs
      simp only [Option.some.injEq] at h
      subst h
      refine ⟨th, th', b, ht, hs, ?_⟩
      cases b
      · simp only [Bool.false_eq_true, if_false]
        congr 1
        rw [show (w false : Thread M U O → Thread M U O) = id from funext fun _ => rfl, List.map_id]
      · rfl

theorem spurious_spec {s s' : St M U O} {t : Nat} (h : spurious s t = some s') :
    ∃ th, s.th[t]? = some th ∧ th.mode = .asleep ∧ s'.sh = s.sh ∧ s'.th = s.th.set t { th with mode := .woken } := by
  unfold spurious at h
  split at h
  · exact absurd h (by simp)
  · rename_i th ht
    split at h
    · rename_i hm
      simp only [Option.some.injEq] at h
      subst h
      exact ⟨th, ht, hm, rfl, rfl⟩
    · exact absurd h (by simp)

theorem get_step {l : List (Thread M U O)} {t : Nat} {th : Thread M U O} (b : Bool) (th' : Thread M U O) (ht : l[t]? = some th)
    (t' : Nat) (x : Thread M U O) :
    ((l.map (w b)).set t th')[t']? = some x ↔ (t' = t ∧ x = th') ∨ (t' ≠ t ∧ ∃ y, l[t']? = some y ∧ x = w b y) := by
  have hlt : t < l.length := by
    have := List.getElem?_eq_some_iff.1 ht; exact this.1
  rw [List.getElem?_set]
  by_cases htt : t = t'
  · subst htt
    simp [hlt, eq_comm]
  · simp only [htt, if_false, Ne.symm htt, false_and, ne_eq, not_false_eq_true, true_and, false_or, List.getElem?_map, Option.map_eq_some_iff]
    constructor <;> rintro ⟨y, h1, h2⟩ <;> exact ⟨y, h1, h2.symm⟩

theorem countP_step (p : Thread M U O → Bool) {l : List (Thread M U O)} {t : Nat} {th : Thread M U O} (th' : Thread M U O)
    (ht : l[t]? = some th) :
    ((l.set t th').countP p : Int) + (if p th = true then 1 else 0) = (l.countP p : Int) + (if p th' = true then 1 else 0) := by
  induction l generalizing t with
  | nil => simp at ht
  | cons a l ih =>
    cases t with
    | zero =>
      simp only [List.getElem?_cons_zero, Option.some.injEq] at ht
      subst ht
      rw [List.set_cons_zero, List.countP_cons, List.countP_cons]
      split <;> split <;> simp <;> omega
    | succ t =>
      simp only [List.getElem?_cons_succ] at ht
      rw [List.set_cons_succ, List.countP_cons, List.countP_cons]
      have := ih ht
      simp only [Int.natCast_add]
      omega

theorem Inv.tlocal {initU : M → U} {s s' : St M U O} {t : Nat} {th th' : Thread M U O} {b : Bool} (hi : Inv s) (ht : s.th[t]? = some th)
    (h : tstep initU s.sh t th = some (s'.sh, th', b)) : Local s.sh t th s'.sh th' b := by
  refine local_of_tstep h (hi.good t th ht) (hi.waiting t th ht) ?_ ?_ (hi.excl t th ht)
  · intro m
    rw [hi.held]; simp [ht]
  · intro i
    rw [hi.heldU]; simp [ht]

theorem Inv.step {initU : M → U} {s s' : St M U O} {t : Nat} (hi : Inv s) (h : step initU s t = some s') : Inv s' := by
  obtain ⟨th, th', b, ht, hs, he⟩ := step_spec h
  have hl := hi.tlocal ht hs
  have hg := get_step (l := s.th) b th' ht
  have hcnt : s'.sh.cnt = (s'.th.countP fun th => counted th.code : Nat) := by
    have h1 : (s.th.map (w b))[t]? = some (w b th) := by simp [ht]
    have h2 := countP_step (fun th => counted th.code) th' h1
    have h3 : (s.th.map (w b)).countP (fun th => counted th.code) = s.th.countP fun th => counted th.code := by
      rw [List.countP_map]; congr 1; funext x; simp [w_code]
    rw [h3, ← hi.cnt, w_code] at h2
    rw [he]
    have := hl.cnt
    omega
  refine ⟨?_, ?_, ?_, hcnt, ?_, ?_, ?_⟩
  · intro t' x hx
    rw [he, hg] at hx
    rcases hx with ⟨_, rfl⟩ | ⟨_, y, hy, rfl⟩
    · exact hl.good
    · rw [w_code]; exact hi.good t' y hy
  · intro t' m
    by_cases htt : t' = t
    · subst htt
      rw [hl.heldT, he]
      constructor
      · exact fun h => ⟨th', (hg _ _).2 (Or.inl ⟨rfl, rfl⟩), h⟩
      · rintro ⟨x, hx, h⟩
        rcases (hg _ _).1 hx with ⟨_, rfl⟩ | ⟨h, _⟩
        · exact h
        · exact absurd rfl h
    · rw [hl.heldO m t' htt, hi.held, he]
      constructor
      · rintro ⟨y, hy, h⟩
        exact ⟨w b y, (hg _ _).2 (Or.inr ⟨htt, y, hy, rfl⟩), (H_w _ _ _).2 h⟩
      · rintro ⟨x, hx, h⟩
        rcases (hg _ _).1 hx with ⟨h, _⟩ | ⟨_, y, hy, rfl⟩
        · exact absurd h htt
        · exact ⟨y, hy, (H_w _ _ _).1 h⟩
  · intro t' i
    by_cases htt : t' = t
    · subst htt
      rw [hl.heldUT, he]
      constructor
      · exact fun h => ⟨th', (hg _ _).2 (Or.inl ⟨rfl, rfl⟩), h⟩
      · rintro ⟨x, hx, h⟩
        rcases (hg _ _).1 hx with ⟨_, rfl⟩ | ⟨h, _⟩
        · exact h
        · exact absurd rfl h
    · rw [hl.heldUO i t' htt, hi.heldU, he]
      constructor
      · rintro ⟨y, hy, h⟩
        exact ⟨w b y, (hg _ _).2 (Or.inr ⟨htt, y, hy, rfl⟩), by rw [w_code, w_reg]; exact h⟩
      · rintro ⟨x, hx, h⟩
        rcases (hg _ _).1 hx with ⟨h, _⟩ | ⟨_, y, hy, rfl⟩
        · exact absurd h htt
        · exact ⟨y, hy, by rw [w_code, w_reg] at h; exact h⟩
  · intro t' x hx hm
    rw [he, hg] at hx
    rcases hx with ⟨_, rfl⟩ | ⟨_, y, hy, rfl⟩
    · exact hl.waiting hm
    · rw [w_code]; exact hi.waiting t' y hy (fun h => hm ((w_run _ _).2 h))
  · intro t' x hx hm
    rw [he, hg] at hx
    rcases hx with ⟨_, rfl⟩ | ⟨_, y, hy, rfl⟩
    · exact hl.asleep hm
    · obtain ⟨hb, hm⟩ := w_asleep _ _ hm
      exact hl.wakes hb (hi.asleep t' y hy hm)
  · intro t' x hx hm
    rw [he, hg] at hx
    rcases hx with ⟨_, rfl⟩ | ⟨htt, y, hy, rfl⟩
    · have := hl.excl hm
      omega
    · rw [w_code] at hm
      have h0 := hi.excl t' y hy hm
      by_cases hc : s'.sh.cnt = s.sh.cnt
      · omega
      · have h1 := hl.changes hc
        have h2 : s.sh.held .nonAtomic = some t := (hi.held _ _).2 ⟨th, ht, h1⟩
        have h3 : s.sh.held .nonAtomic = some t' := by
          refine (hi.held _ _).2 ⟨y, hy, (excl_iff _ |>.1 hm).2.1, fun _ => ?_⟩
          rcases hmode : y.mode with _ | _ | _
          · rfl
          all_goals
            obtain ⟨c, hc⟩ := hi.waiting t' y hy (by simp [hmode])
            have := (excl_iff _ |>.1 hm).2.2
            rw [hc] at this
            simp [noWait] at this
        rw [h2] at h3
        exact absurd (by simpa using h3) htt.symm

theorem Inv.spurious {s s' : St M U O} {t : Nat} (hi : Inv s) (h : spurious s t = some s') : Inv s' := by
  obtain ⟨th, ht, hm, h1, h2⟩ := spurious_spec h
  clear h
  have hlt : t < s.th.length := (List.getElem?_eq_some_iff.1 ht).1
  have hg : ∀ t' x, s'.th[t']? = some x ↔ (t' = t ∧ x = { th with mode := .woken }) ∨ (t' ≠ t ∧ s.th[t']? = some x) := by
    intro t' x
    rw [h2, List.getElem?_set]
    by_cases htt : t = t'
    · subst htt; simp [hlt, eq_comm]
    · simp [htt, Ne.symm htt]
  have hc : (s'.th.countP fun th => counted th.code) = s.th.countP fun th => counted th.code := by
    have := countP_step (fun th => counted th.code) { th with mode := .woken } ht
    rw [← h2] at this
    simp only at this
    omega
  refine ⟨?_, ?_, ?_, ?_, ?_, ?_, ?_⟩
  · intro t' x hx
    rcases (hg _ _).1 hx with ⟨_, rfl⟩ | ⟨_, hx⟩
    · exact hi.good t th ht
    · exact hi.good t' x hx
  · intro t' m
    rw [h1, hi.held]
    constructor
    · rintro ⟨x, hx, h⟩
      by_cases htt : t' = t
      · subst htt
        obtain rfl : x = th := by rw [ht] at hx; simpa using hx.symm
        exact ⟨_, (hg _ _).2 (Or.inl ⟨rfl, rfl⟩), h.1, fun hn => by have := h.2 hn; simp [hm] at this⟩
      · exact ⟨x, (hg _ _).2 (Or.inr ⟨htt, hx⟩), h⟩
    · rintro ⟨x, hx, h⟩
      rcases (hg _ _).1 hx with ⟨rfl, rfl⟩ | ⟨_, hx⟩
      · exact ⟨th, ht, h.1, fun hn => by have := h.2 hn; simp at this⟩
      · exact ⟨x, hx, h⟩
  · intro t' i
    rw [h1, hi.heldU]
    constructor
    · rintro ⟨x, hx, h⟩
      by_cases htt : t' = t
      · subst htt
        obtain rfl : x = th := by rw [ht] at hx; simpa using hx.symm
        exact ⟨_, (hg _ _).2 (Or.inl ⟨rfl, rfl⟩), h⟩
      · exact ⟨x, (hg _ _).2 (Or.inr ⟨htt, hx⟩), h⟩
    · rintro ⟨x, hx, h⟩
      rcases (hg _ _).1 hx with ⟨rfl, rfl⟩ | ⟨_, hx⟩
      · exact ⟨th, ht, h⟩
      · exact ⟨x, hx, h⟩
  · rw [h1, hi.cnt, hc]
  · intro t' x hx hm'
    rcases (hg _ _).1 hx with ⟨_, rfl⟩ | ⟨_, hx⟩
    · exact hi.waiting t th ht (by simp [hm])
    · exact hi.waiting t' x hx hm'
  · intro t' x hx hm'
    rw [h1]
    rcases (hg _ _).1 hx with ⟨_, rfl⟩ | ⟨_, hx⟩
    · simp at hm'
    · exact hi.asleep t' x hx hm'
  · intro t' x hx hm'
    rw [h1]
    rcases (hg _ _).1 hx with ⟨_, rfl⟩ | ⟨_, hx⟩
    · exact hi.excl t th ht hm'
    · exact hi.excl t' x hx hm'

theorem inv_start (mem : M) (users : List User) (umem : Nat → U) (ops : List (Op M U O)) (h : ∀ op ∈ ops, op.Safe) :
    Inv (start mem users umem ops) := by
  have hg : ∀ (t : Nat) (th : Thread M U O), (start mem users umem ops).th[t]? = some th →
      th.mode = .run ∧ Good th.code ∧ (∀ m, holds m th.code = false) ∧ inUser th.code = false ∧ counted th.code = false := by
    intro t th ht
    simp only [start, List.getElem?_map, Option.map_eq_some_iff] at ht
    obtain ⟨op, ho, rfl⟩ := ht
    exact ⟨rfl, good_code op (h op (List.mem_of_getElem? ho))⟩
  refine ⟨fun t th ht => (hg t th ht).2.1, ?_, ?_, ?_, ?_, ?_, ?_⟩
  · intro t m
    constructor
    · intro h; simp [start] at h
    · rintro ⟨th, ht, h⟩
      have := (hg t th ht).2.2.1 m
      rw [h.1] at this; simp at this
  · intro t m
    constructor
    · intro h; simp [start] at h
    · rintro ⟨th, ht, h⟩
      have := (hg t th ht).2.2.2.1
      rw [h.1] at this; simp at this
  · have : (start mem users umem ops).th.countP (fun th => counted th.code) = 0 := by
      rw [List.countP_eq_zero]
      intro th hth
      obtain ⟨t, ht⟩ := List.getElem?_of_mem hth
      simp [(hg t th ht).2.2.2.2]
    rw [this]; rfl
  · intro t th ht hm; exact absurd (hg t th ht).1 hm
  · intro t th ht hm; rw [(hg t th ht).1] at hm; simp at hm
  · intro t th ht hm
    have := (hg t th ht).2.2.1 .atomicOp
    rw [(excl_iff _ |>.1 hm).1] at this; simp at this

theorem inv_run {initU : M → U} {s s' : St M U O} (h : Run initU s s') (hi : Inv s) : Inv s' := by
  induction h with
  | refl => exact hi
  | step _ h ih => exact ih.step h
  | spurious _ h ih => exact ih.spurious h

end Thot.Decoder
