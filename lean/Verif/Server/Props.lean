import Verif.Server.Model

/-! Shutting down the server and closing the connections. -/

namespace Thot.Server

/-- The worker has decreased the counter. -/
def WPc.past : WPc → Bool
  | .decUnlock => true
  | .done => true
  | _ => false

/-- The worker has called `close`. -/
def WPc.closed : WPc → Bool
  | .work _ => false
  | .close => false
  | _ => true

/-- The worker holds the mutex. -/
def WPc.holds : WPc → Bool
  | .dec => true
  | .decUnlock => true
  | _ => false

def MPc.holds : MPc → Bool
  | .incAdd => true
  | .incUnlock => true
  | .waitTest => true
  | .destroy => true
  | .done => true
  | _ => false

/-- The last thread has been created but not counted. -/
def MPc.uncounted : MPc → Bool
  | .incLock => true
  | .incAdd => true
  | _ => false

/-- The main thread has left the loop. -/
def MPc.out : MPc → Bool
  | .waitLock => true
  | .waitTest => true
  | .asleep => true
  | .woken => true
  | .destroy => true
  | .done => true
  | _ => false

def pending (ws : List Worker) : Nat := ws.countP fun w => !w.pc.past

structure Inv (s : St) : Prop where
  cnt : s.cnt = pending s.ws - (if s.main.uncounted then 1 else 0)
  mmut : s.mtx = some .main ↔ s.main.holds = true
  wmut : ∀ i : Nat, s.mtx = some (.worker i) ↔ ∃ w, s.ws[i]? = some w ∧ w.pc.holds = true
  asleep : s.main = .asleep → s.cnt > 0
  over : (s.main = .destroy ∨ s.main = .done) → pending s.ws = 0
  destroyed : s.destroyed = true → s.main = .done
  fin : s.main.out = true → s.fin = true
  acc : s.accepted = List.range s.accepted.length
  wfd : ∀ w ∈ s.ws, w.fd < s.accepted.length
  wnodup : (s.ws.map (·.fd)).Nodup
  cl : s.closed.Nodup
  clacc : ∀ x ∈ s.closed, x < s.accepted.length
  clw : ∀ w ∈ s.ws, (w.fd ∈ s.closed ↔ w.pc.closed = true)

theorem inv_start (conns : List Conn) : Inv (start conns) := by
  constructor <;> simp [start, pending, MPc.uncounted, MPc.holds, MPc.out]

theorem pending_set {ws : List Worker} {i : Nat} {w w' : Worker} (h : ws[i]? = some w) :
    (pending (ws.set i w') : Int) = pending ws - (if w.pc.past then 0 else 1) + (if w'.pc.past then 0 else 1) := by
  induction ws generalizing i with
  | nil => simp at h
  | cons a ws ih =>
    cases i with
    | zero =>
      simp only [List.getElem?_cons_zero, Option.some.injEq] at h
      subst h
      simp only [pending, List.set_cons_zero, List.countP_cons]
      cases a.pc.past <;> cases w'.pc.past <;> simp <;> omega
    | succ i =>
      simp only [List.getElem?_cons_succ] at h
      have := ih h
      simp only [pending, List.set_cons_succ, List.countP_cons] at this ⊢
      omega

theorem set_mem {ws : List Worker} {i : Nat} {w' x : Worker} (h : x ∈ ws.set i w') : x = w' ∨ x ∈ ws := by
  rcases List.mem_or_eq_of_mem_set h with h | h
  · exact .inr h
  · exact .inl h

theorem map_fd_set {ws : List Worker} {i : Nat} {w w' : Worker} (h : ws[i]? = some w) (hf : w'.fd = w.fd) :
    (ws.set i w').map (·.fd) = ws.map (·.fd) := by
  rw [List.map_set, hf]
  apply List.ext_getElem?
  intro j
  rw [List.getElem?_set]
  split
  · rename_i e
    subst e
    have hlt : i < ws.length := (List.getElem?_eq_some_iff.1 h).1
    rw [List.getElem?_eq_some_iff] at h
    simp [hlt, h.2]
  · rfl

theorem fd_inj {ws : List Worker} (hn : (ws.map (·.fd)).Nodup) {i j : Nat} {w v : Worker} (hi : ws[i]? = some w) (hj : ws[j]? = some v)
    (he : w.fd = v.fd) : i = j := by
  obtain ⟨h1, e1⟩ := List.getElem?_eq_some_iff.1 hi
  obtain ⟨h2, e2⟩ := List.getElem?_eq_some_iff.1 hj
  rw [List.nodup_iff_pairwise_ne, List.pairwise_iff_getElem] at hn
  rcases Nat.lt_trichotomy i j with hlt | hlt | hlt
  · exact (hn i j (by simpa using h1) (by simpa using h2) hlt (by simp [e1, e2, he])).elim
  · exact hlt
  · exact (hn j i (by simpa using h2) (by simpa using h1) hlt (by simp [e1, e2, he])).elim

theorem inv_handle {s : St} {cs : List Conn} (h : Inv s) (hm : s.main = .loop) (c : Conn) : Inv (handle s cs c) := by
  have hmut : s.mtx ≠ some .main := by
    intro e; have := h.mmut.1 e; rw [hm] at this; cases this
  have hnc : s.accepted.length ∉ s.closed := fun hx => Nat.lt_irrefl _ (h.clacc _ hx)
  have hcl : (s.closed ++ [s.accepted.length]).Nodup := by
    rw [List.nodup_append]
    exact ⟨h.cl, by simp, by intro a ha b hb; simp at hb; subst hb; intro e; subst e; exact hnc ha⟩
  have hacc : s.accepted ++ [s.accepted.length] = List.range (s.accepted ++ [s.accepted.length]).length := by
    simp only [List.length_append, List.length_cons, List.length_nil, Nat.zero_add, List.range_succ]
    rw [← h.acc]
  have hcnt := h.cnt
  have hwf : ∀ w ∈ s.ws, w.fd < (s.accepted ++ [s.accepted.length]).length := by
    intro w hw; have := h.wfd w hw; simp; omega
  have hclacc : ∀ x ∈ s.closed, x < (s.accepted ++ [s.accepted.length]).length := by
    intro w hw; have := h.clacc w hw; simp; omega
  have hclacc' : ∀ x ∈ s.closed ++ [s.accepted.length], x < (s.accepted ++ [s.accepted.length]).length := by
    intro x hx
    rcases List.mem_append.1 hx with hx | hx
    · exact hclacc x hx
    · simp at hx ⊢; omega
  have hclw : ∀ w ∈ s.ws, (w.fd ∈ s.closed ++ [s.accepted.length] ↔ w.pc.closed = true) := by
    intro w hw
    have := h.wfd w hw
    rw [← h.clw w hw]
    simp; omega
  have hd : s.destroyed = true → s.main = .done := h.destroyed
  have ho : s.main.out = true → False := by rw [hm]; intro h; cases h
  cases c with
  | acceptError => exact ⟨h.cnt, h.mmut, h.wmut, h.asleep, h.over, hd, h.fin, h.acc, h.wfd, h.wnodup, h.cl, h.clacc, h.clw⟩
  | typeError => exact ⟨h.cnt, h.mmut, h.wmut, h.asleep, h.over, hd, h.fin, hacc, hwf, h.wnodup, hcl, hclacc', hclw⟩
  | userError f => exact ⟨h.cnt, h.mmut, h.wmut, h.asleep, h.over, hd, fun e => (ho e).elim, hacc, hwf, h.wnodup, hcl, hclacc', hclw⟩
  | initError f => exact ⟨h.cnt, h.mmut, h.wmut, h.asleep, h.over, hd, fun e => (ho e).elim, hacc, hwf, h.wnodup, hcl, hclacc', hclw⟩
  | createError f => exact ⟨h.cnt, h.mmut, h.wmut, h.asleep, h.over, hd, fun e => (ho e).elim, hacc, hwf, h.wnodup, h.cl, hclacc, h.clw⟩
  | ok f n =>
    refine ⟨?_, ?_, ?_, ?_, ?_, ?_, ?_, hacc, ?_, ?_, h.cl, hclacc, ?_⟩
    · rw [hm] at hcnt
      simp only [handle, pending, List.countP_append, MPc.uncounted] at hcnt ⊢
      simp [WPc.past] at hcnt ⊢
      omega
    · simp only [handle, MPc.holds]
      simp [hmut]
    · intro i
      rw [show (handle s cs (.ok f n)).mtx = s.mtx from rfl, h.wmut i]
      simp only [handle]
      rw [List.getElem?_append]
      constructor
      · rintro ⟨w, hw, hh⟩
        have := (List.getElem?_eq_some_iff.1 hw).1
        exact ⟨w, by rw [if_pos this]; exact hw, hh⟩
      · rintro ⟨w, hw, hh⟩
        split at hw
        · exact ⟨w, hw, hh⟩
        · rw [List.getElem?_singleton] at hw
          split at hw
          · injection hw with hw; subst hw; cases hh
          · cases hw
    · intro e; cases e
    · rintro (e | e) <;> cases e
    · intro e; have := hd e; rw [hm] at this; cases this
    · intro e; cases e
    · intro w hw
      rcases List.mem_append.1 hw with hw | hw
      · exact hwf w hw
      · simp at hw; subst hw; simp [handle]
    · simp only [handle, List.map_append]
      rw [List.nodup_append]
      refine ⟨h.wnodup, by simp, ?_⟩
      intro a ha b hb
      simp at hb; subst hb
      simp only [List.mem_map] at ha
      obtain ⟨w, hw, rfl⟩ := ha
      have := h.wfd w hw
      omega
    · intro w hw
      rcases List.mem_append.1 hw with hw | hw
      · exact h.clw w hw
      · simp at hw; subst hw; simp [WPc.closed, handle, hnc]

theorem inv_main {s s' : St} (h : Inv s) (hs : stepMain s = some s') : Inv s' := by
  have hw := h.wmut
  unfold stepMain at hs
  have hm' := h.mmut
  have hc := h.cnt
  have hd := h.destroyed
  have hf := h.fin
  split at hs
  · rename_i hm
    split at hs
    · rename_i hfin
      injection hs with hs; subst hs
      rw [hm] at hm' hc hd
      exact ⟨hc, hm', hw, fun e => (by cases e), (by rintro (e | e) <;> cases e), fun e => (by cases hd e), fun _ => hfin,
        h.acc, h.wfd, h.wnodup, h.cl, h.clacc, h.clw⟩
    · split at hs
      · cases hs
      · injection hs with hs; subst hs
        exact inv_handle h hm _
  · rename_i hm
    split at hs <;> try contradiction
    rename_i hmu
    injection hs with hs; subst hs
    rw [hm] at hm' hc hd
    refine ⟨hc, by simp [MPc.holds], ?_, fun e => (by cases e), (by rintro (e | e) <;> cases e), fun e => (by cases hd e), fun e => (by cases e),
        h.acc, h.wfd, h.wnodup, h.cl, h.clacc, h.clw⟩
    intro i; rw [← hw i, hmu]; simp
  · rename_i hm
    injection hs with hs; subst hs
    rw [hm] at hm' hc hd
    exact ⟨by simp [MPc.uncounted] at hc ⊢; omega, hm', hw, fun e => (by cases e), (by rintro (e | e) <;> cases e), fun e => (by cases hd e), fun e => (by cases e),
        h.acc, h.wfd, h.wnodup, h.cl, h.clacc, h.clw⟩
  · rename_i hm
    injection hs with hs; subst hs
    rw [hm] at hm' hc hd
    refine ⟨hc, by simp [MPc.holds], ?_, fun e => (by cases e), (by rintro (e | e) <;> cases e), fun e => (by cases hd e), fun e => (by cases e),
        h.acc, h.wfd, h.wnodup, h.cl, h.clacc, h.clw⟩
    intro i; rw [← hw i, hm'.2 rfl]; simp
  · rename_i hm
    split at hs <;> try contradiction
    rename_i hmu
    injection hs with hs; subst hs
    rw [hm] at hm' hc hd hf
    refine ⟨hc, by simp [MPc.holds], ?_, fun e => (by cases e), (by rintro (e | e) <;> cases e), fun e => (by cases hd e), fun _ => hf rfl,
        h.acc, h.wfd, h.wnodup, h.cl, h.clacc, h.clw⟩
    intro i; rw [← hw i, hmu]; simp
  · rename_i hm
    rw [hm] at hm' hc hd hf
    split at hs
    · rename_i hpos
      injection hs with hs; subst hs
      refine ⟨hc, by simp [MPc.holds], ?_, fun e => hpos, (by rintro (e | e) <;> cases e), fun e => (by cases hd e), fun _ => hf rfl,
        h.acc, h.wfd, h.wnodup, h.cl, h.clacc, h.clw⟩
      intro i; rw [← hw i, hm'.2 rfl]; simp
    · rename_i hpos
      injection hs with hs; subst hs
      refine ⟨hc, hm', hw, fun e => (by cases e), ?_, fun e => (by cases hd e), fun _ => hf rfl,
        h.acc, h.wfd, h.wnodup, h.cl, h.clacc, h.clw⟩
      simp [MPc.uncounted] at hc
      intro _; show pending s.ws = 0; omega
  · cases hs
  · rename_i hm
    split at hs <;> try contradiction
    rename_i hmu
    injection hs with hs; subst hs
    rw [hm] at hm' hc hd hf
    refine ⟨hc, by simp [MPc.holds], ?_, fun e => (by cases e), (by rintro (e | e) <;> cases e), fun e => (by cases hd e), fun _ => hf rfl,
        h.acc, h.wfd, h.wnodup, h.cl, h.clacc, h.clw⟩
    intro i; rw [← hw i, hmu]; simp
  · rename_i hm
    injection hs with hs; subst hs
    have ho := h.over (.inl hm)
    rw [hm] at hm' hc hd hf
    exact ⟨hc, hm', hw, fun e => (by cases e), fun _ => ho, fun _ => rfl, fun _ => hf rfl,
        h.acc, h.wfd, h.wnodup, h.cl, h.clacc, h.clw⟩
  · cases hs

theorem getElem?_set'' {ws : List Worker} {i j : Nat} {w w' : Worker} (h : ws[i]? = some w) :
    (ws.set i w')[j]? = if i = j then some w' else ws[j]? := by
  rw [List.getElem?_set]
  split
  · rename_i e; subst e
    simp [(List.getElem?_eq_some_iff.1 h).1]
  · rfl

theorem wake_holds (m : MPc) : (wake m).holds = m.holds := by cases m <;> rfl
theorem wake_uncounted (m : MPc) : (wake m).uncounted = m.uncounted := by cases m <;> rfl
theorem wake_out (m : MPc) : (wake m).out = m.out := by cases m <;> rfl

theorem inv_worker {s s' : St} {i : Nat} (h : Inv s) (hs : stepWorker s i = some s') : Inv s' := by
  unfold stepWorker at hs
  split at hs
  · cases hs
  rename_i w hw
  have hmem := List.mem_of_getElem? hw
  have hc := h.cnt
  have hclw := h.clw w hmem
  -- the parts that only depend on the list of workers
  have key : ∀ p : WPc, (∀ x ∈ s.ws.set i { w with pc := p }, x.fd < s.accepted.length) ∧ ((s.ws.set i { w with pc := p }).map (·.fd)).Nodup := by
    intro p
    constructor
    · intro x hx
      rcases set_mem hx with e | e
      · subst e; exact h.wfd w hmem
      · exact h.wfd x e
    · rw [map_fd_set (w' := { w with pc := p }) hw rfl]; exact h.wnodup
  have keycl : ∀ p : WPc, p.closed = w.pc.closed → ∀ x ∈ s.ws.set i { w with pc := p }, (x.fd ∈ s.closed ↔ x.pc.closed = true) := by
    intro p hp x hx
    rcases set_mem hx with e | e
    · subst e; simp only [hp]; exact hclw
    · exact h.clw x e
  have keym : ∀ p : WPc, p.holds = w.pc.holds → ∀ j : Nat, s.mtx = some (.worker j) ↔ ∃ x, (s.ws.set i { w with pc := p })[j]? = some x ∧ x.pc.holds = true := by
    intro p hp j
    rw [h.wmut j, getElem?_set'' hw]
    by_cases e : i = j
    · subst e; simp [hw, hp]
    · simp [e]
  have keyp : ∀ p : WPc, p.past = w.pc.past → pending (s.ws.set i { w with pc := p }) = pending s.ws := by
    intro p hp
    have := pending_set (w' := { w with pc := p }) hw
    simp only [hp] at this
    omega
  split at hs
  · rename_i e
    injection hs with hs; subst hs
    refine ⟨?_, h.mmut, keym _ (by rw [e]; rfl), h.asleep, ?_, h.destroyed, h.fin, h.acc, (key _).1, (key _).2, h.cl, h.clacc, keycl _ (by rw [e]; rfl)⟩
    · show s.cnt = _; rw [keyp _ (by rw [e]; rfl)]; exact hc
    · intro hh; show pending (s.ws.set i _) = 0; rw [keyp _ (by rw [e]; rfl)]; exact h.over hh
  · rename_i n e
    injection hs with hs; subst hs
    refine ⟨?_, h.mmut, keym _ (by rw [e]; rfl), h.asleep, ?_, h.destroyed, h.fin, h.acc, (key _).1, (key _).2, h.cl, h.clacc, keycl _ (by rw [e]; rfl)⟩
    · show s.cnt = _; rw [keyp _ (by rw [e]; rfl)]; exact hc
    · intro hh; show pending (s.ws.set i _) = 0; rw [keyp _ (by rw [e]; rfl)]; exact h.over hh
  · rename_i e
    injection hs with hs; subst hs
    have hnc : w.fd ∉ s.closed := by rw [hclw, e]; simp [WPc.closed]
    refine ⟨?_, h.mmut, keym _ (by rw [e]; rfl), h.asleep, ?_, h.destroyed, h.fin, h.acc, (key _).1, (key _).2, ?_, ?_, ?_⟩
    · show s.cnt = _; rw [keyp _ (by rw [e]; rfl)]; exact hc
    · intro hh; show pending (s.ws.set i _) = 0; rw [keyp _ (by rw [e]; rfl)]; exact h.over hh
    · show (s.closed ++ [w.fd]).Nodup
      rw [List.nodup_append]
      exact ⟨h.cl, by simp, by intro a ha b hb; simp at hb; subst hb; intro e; subst e; exact hnc ha⟩
    · intro x hx
      rcases List.mem_append.1 hx with hx | hx
      · exact h.clacc x hx
      · simp at hx; subst hx; exact h.wfd w hmem
    · intro x hx
      show (x.fd ∈ s.closed ++ [w.fd] ↔ _)
      obtain ⟨j, hj⟩ := List.getElem?_of_mem hx
      rw [getElem?_set'' hw] at hj
      split at hj
      · injection hj with hj; subst hj; simp [WPc.closed]
      · rename_i hne
        have hx' := List.mem_of_getElem? hj
        have : x.fd ≠ w.fd := fun he => hne (fd_inj h.wnodup hj hw he).symm
        rw [← h.clw x hx']; simp [this]
  · rename_i e
    split at hs <;> try contradiction
    rename_i hmu
    injection hs with hs; subst hs
    have hmain : s.main.holds = false := by
      cases hh : s.main.holds with
      | false => rfl
      | true => have := h.mmut.2 hh; rw [hmu] at this; cases this
    refine ⟨?_, by simp [hmain], ?_, h.asleep, ?_, h.destroyed, h.fin, h.acc, (key _).1, (key _).2, h.cl, h.clacc, keycl _ (by rw [e]; rfl)⟩
    · show s.cnt = _; rw [keyp _ (by rw [e]; rfl)]; exact hc
    · intro j
      show some (Who.worker i) = some (.worker j) ↔ _
      rw [getElem?_set'' hw]
      by_cases e' : i = j
      · subst e'; simp [WPc.holds]
      · have := h.wmut j
        rw [hmu] at this
        simp only [e', if_false]
        rw [← this]; simp [e']
    · intro hh; show pending (s.ws.set i _) = 0; rw [keyp _ (by rw [e]; rfl)]; exact h.over hh
  · rename_i e
    injection hs with hs; subst hs
    have hp : pending (s.ws.set i { w with pc := .decUnlock }) = (pending s.ws : Int) - 1 := by
      have := pending_set (w' := { w with pc := .decUnlock }) hw
      rw [e] at this
      simp [WPc.past] at this
      omega
    have hheld : s.mtx = some (.worker i) := (h.wmut i).2 ⟨w, hw, by rw [e]; rfl⟩
    have hmain : s.main.holds = false := by
      cases hh : s.main.holds with
      | false => rfl
      | true => have := h.mmut.2 hh; rw [hheld] at this; cases this
    have hun : ∀ m, m = (if s.cnt - 1 = 0 then wake s.main else s.main) → m.holds = s.main.holds ∧ m.uncounted = s.main.uncounted ∧ m.out = s.main.out := by
      intro m e; subst e
      split
      · exact ⟨wake_holds _, wake_uncounted _, wake_out _⟩
      · exact ⟨rfl, rfl, rfl⟩
    obtain ⟨u1, u2, u3⟩ := hun _ rfl
    refine ⟨?_, ?_, keym _ (by rw [e]; rfl), ?_, ?_, ?_, ?_, h.acc, (key _).1, (key _).2, h.cl, h.clacc, keycl _ (by rw [e]; rfl)⟩
    · show s.cnt - 1 = _
      simp only [u2]; rw [hp]; omega
    · show s.mtx = _ ↔ _; rw [h.mmut]; simp only [u1]
    · intro ha
      show s.cnt - 1 > 0
      simp only at ha
      split at ha
      · cases hm : s.main <;> rw [hm] at ha <;> cases ha
      · have := h.asleep ha; omega
    · intro hh
      exfalso
      simp only at hh
      rcases hh with hh | hh <;> rw [hh] at u1 <;> rw [← u1] at hmain <;> cases hmain
    · intro hh
      have := h.destroyed hh
      rw [this] at hmain; cases hmain
    · intro hh; simp only [u3] at hh; exact h.fin hh
  · rename_i e
    injection hs with hs; subst hs
    have hheld : s.mtx = some (.worker i) := (h.wmut i).2 ⟨w, hw, by rw [e]; rfl⟩
    have hmain : s.main.holds = false := by
      cases hh : s.main.holds with
      | false => rfl
      | true => have := h.mmut.2 hh; rw [hheld] at this; cases this
    refine ⟨?_, by simp [hmain], ?_, h.asleep, ?_, h.destroyed, h.fin, h.acc, (key _).1, (key _).2, h.cl, h.clacc, keycl _ (by rw [e]; rfl)⟩
    · show s.cnt = _; rw [keyp _ (by rw [e]; rfl)]; exact hc
    · intro j
      show none = some (Who.worker j) ↔ _
      rw [getElem?_set'' hw]
      by_cases e' : i = j
      · subst e'; simp [WPc.holds]
      · have := h.wmut j
        rw [hheld] at this
        simp only [e', if_false]
        rw [← this]; simp [e']
    · intro hh; show pending (s.ws.set i _) = 0; rw [keyp _ (by rw [e]; rfl)]; exact h.over hh
  · cases hs

theorem inv_spurious {s s' : St} (h : Inv s) (hs : spurious s = some s') : Inv s' := by
  unfold spurious at hs
  split at hs
  · rename_i hm
    injection hs with hs; subst hs
    have hm' := h.mmut
    have hc := h.cnt
    have hd := h.destroyed
    have hf := h.fin
    rw [hm] at hm' hc hd hf
    exact ⟨hc, hm', h.wmut, fun e => (by cases e), (by rintro (e | e) <;> cases e), fun e => (by cases hd e), fun _ => hf rfl,
      h.acc, h.wfd, h.wnodup, h.cl, h.clacc, h.clw⟩
  · cases hs

theorem inv_run {conns : List Conn} {n k : Nat} {s : St} (hr : Run (start conns) n k s) : Inv s := by
  induction hr with
  | refl => exact inv_start conns
  | step _ hs ih =>
    rename_i w _
    cases w with
    | main => exact inv_main ih hs
    | worker i => exact inv_worker ih hs
  | spurious _ hs ih => exact inv_spurious ih hs

/-- **C71** When the server has returned from waiting for its threads (and goes on to destroy the mutex and to exit), it
was told to end, and every thread that it created has finished its request, closed its connection and released the mutex. -/
theorem C71_shutdown_waits_for_all_requests (conns : List Conn) (n k : Nat) (s : St) (hr : Run (start conns) n k s)
    (hm : s.main = .destroy ∨ s.main = .done) :
    s.fin = true ∧ ∀ w ∈ s.ws, w.pc = .done ∧ w.fd ∈ s.closed := by
  have h := inv_run hr
  have ho := h.over hm
  refine ⟨h.fin (by rcases hm with e | e <;> rw [e] <;> rfl), fun w hw => ?_⟩
  have hp : w.pc.past = true := by
    have := List.countP_eq_zero.1 ho w hw
    simpa using this
  have hnd : w.pc ≠ .decUnlock := by
    intro e
    obtain ⟨i, hi⟩ := List.getElem?_of_mem hw
    have h1 := (h.wmut i).2 ⟨w, hi, by rw [e]; rfl⟩
    have h2 := h.mmut.2 (by rcases hm with e | e <;> rw [e] <;> rfl)
    rw [h1] at h2; cases h2
  have hd : w.pc = .done := by
    cases hpc : w.pc <;> rw [hpc] at hp hnd <;> first | rfl | (cases hp; done) | exact (hnd rfl).elim
  exact ⟨hd, (h.clw w hw).2 (by rw [hd]; rfl)⟩

/-- The server cannot do anything: it has returned, or it waits for a connection, and all its threads have finished. -/
def Idle (s : St) : Prop :=
  (∀ w ∈ s.ws, w.pc = .done) ∧ (s.main = .done ∨ (s.main = .loop ∧ s.fin = false ∧ s.conns = []))

theorem progress {s : St} (h : Inv s) (hi : ¬ Idle s) : ∃ w, step s w ≠ none := by
  -- the owner of the mutex can go on
  cases hmu : s.mtx with
  | some o =>
    cases o with
    | worker i =>
      obtain ⟨w, hw, hh⟩ := (h.wmut i).1 hmu
      refine ⟨.worker i, ?_⟩
      simp only [step, stepWorker, hw]
      cases hpc : w.pc <;> rw [hpc] at hh <;> first | (cases hh; done) | simp
    | main =>
      have hh := h.mmut.1 hmu
      by_cases hd : s.main = .done
      · -- all workers have decreased the counter, and none holds the mutex
        exfalso
        apply hi
        refine ⟨fun w hw => ?_, .inl hd⟩
        have ho := h.over (.inr hd)
        have hp : w.pc.past = true := by
          have := List.countP_eq_zero.1 ho w hw
          simpa using this
        cases hpc : w.pc <;> rw [hpc] at hp <;> first | rfl | (cases hp; done) | skip
        obtain ⟨i, hj⟩ := List.getElem?_of_mem hw
        have h1 := (h.wmut i).2 ⟨w, hj, by rw [hpc]; rfl⟩
        rw [hmu] at h1; cases h1
      · refine ⟨.main, ?_⟩
        simp only [step, stepMain]
        cases hm : s.main <;> rw [hm] at hh hd <;> first | (cases hh; done) | exact (hd rfl).elim | (simp; done) | (simp only []; split <;> simp)
  | none =>
    by_cases hw : ∃ w ∈ s.ws, w.pc ≠ .done
    · obtain ⟨w, hw, hne⟩ := hw
      obtain ⟨i, hj⟩ := List.getElem?_of_mem hw
      refine ⟨.worker i, ?_⟩
      simp only [step, stepWorker, hj]
      cases hpc : w.pc with
      | done => exact (hne hpc).elim
      | work n => cases n <;> simp
      | decLock => simp [hmu]
      | _ => simp
    · have hall : ∀ w ∈ s.ws, w.pc = .done := fun w hx => Classical.byContradiction fun hc => hw ⟨w, hx, hc⟩
      have hz : pending s.ws = 0 := List.countP_eq_zero.2 fun w hx => by rw [hall w hx]; simp [WPc.past]
      refine ⟨.main, ?_⟩
      simp only [step, stepMain]
      cases hm : s.main with
      | loop =>
        simp only []
        split
        · simp
        · rename_i hf
          cases hc : s.conns with
          | nil => exact (hi ⟨hall, .inr ⟨hm, by simpa using hf, hc⟩⟩).elim
          | cons => simp
      | asleep =>
        have h1 := h.asleep hm
        have h2 := h.cnt
        rw [hz, hm] at h2
        simp [MPc.uncounted] at h2
        omega
      | done => exact (hi ⟨hall, .inl hm⟩).elim
      | waitTest => simp only []; split <;> simp
      | _ => simp [hmu]

/-- Steps left for each part of the state. -/
def Conn.cost : Conn → Nat
  | .ok _ n => n + 12
  | _ => 1

def WPc.cost : WPc → Nat
  | .work n => n + 7
  | .close => 6
  | .decLock => 5
  | .dec => 4
  | .decUnlock => 1
  | .done => 0

def MPc.cost : MPc → Nat
  | .loop => 6
  | .incLock => 9
  | .incAdd => 8
  | .incUnlock => 7
  | .waitLock => 5
  | .woken => 5
  | .waitTest => 4
  | .asleep => 3
  | .destroy => 1
  | .done => 0

def workCost (ws : List Worker) : Nat := (ws.map fun w => w.pc.cost).sum

def cost (s : St) : Nat := (s.conns.map Conn.cost).sum + workCost s.ws + s.main.cost

theorem workCost_set {ws : List Worker} {i : Nat} {w w' : Worker} (h : ws[i]? = some w) :
    workCost (ws.set i w') + w.pc.cost = workCost ws + w'.pc.cost := by
  induction ws generalizing i with
  | nil => simp at h
  | cons a ws ih =>
    cases i with
    | zero =>
      simp only [List.getElem?_cons_zero, Option.some.injEq] at h
      subst h
      simp only [workCost, List.set_cons_zero, List.map_cons, List.sum_cons]
      omega
    | succ i =>
      simp only [List.getElem?_cons_succ] at h
      have := ih h
      simp only [workCost, List.set_cons_succ, List.map_cons, List.sum_cons] at this ⊢
      omega

theorem cost_step {s s' : St} {w : Who} (h : step s w = some s') : cost s' + 1 ≤ cost s := by
  cases w with
  | main =>
    simp only [step, stepMain] at h
    split at h
    · rename_i hm
      split at h
      · injection h with h; subst h; simp only [cost, hm, MPc.cost]; omega
      · split at h
        · cases h
        · rename_i c cs hc
          injection h with h; subst h
          cases c <;> simp [handle, cost, hc, hm, MPc.cost, Conn.cost, workCost, WPc.cost] <;> omega
    all_goals
      rename_i hm
      first
        | (injection h with h; subst h; simp only [cost, hm, MPc.cost]; omega)
        | (cases h; done)
        | (split at h <;> first | (cases h; done) | (injection h with h; subst h; simp only [cost, hm, MPc.cost]; omega))
  | worker i =>
    simp only [step, stepWorker] at h
    split at h
    · cases h
    rename_i w hw
    have hset := fun w' => workCost_set (w' := w') hw
    have hwake : ∀ b : Prop, [Decidable b] → (if b then wake s.main else s.main).cost ≤ s.main.cost + 2 := by
      intro b _
      split
      · cases s.main <;> simp [wake, MPc.cost]
      · omega
    split at h
    case h_4 =>
      rename_i e
      split at h <;> try contradiction
      injection h with h; subst h
      have := hset { w with pc := .dec }
      rw [e] at this
      simp only [cost, WPc.cost] at this ⊢
      omega
    case h_5 =>
      rename_i e
      injection h with h; subst h
      have := hset { w with pc := .decUnlock }
      have hk := hwake (s.cnt - 1 = 0)
      rw [e] at this
      simp only [cost, WPc.cost] at this ⊢
      omega
    case h_2 =>
      rename_i n e
      injection h with h; subst h
      have := hset { w with pc := .work n }
      rw [e] at this
      simp only [cost, WPc.cost] at this ⊢
      omega
    case h_7 => cases h
    all_goals
      rename_i e
      injection h with h; subst h
      simp only [cost]
      generalize hx : s.ws.set i _ = y
      first
        | (have := hset { w with pc := .close }; rw [e] at this; rw [← hx]; simp only [WPc.cost] at this; omega)
        | (have := hset { w with pc := .decLock }; rw [e] at this; rw [← hx]; simp only [WPc.cost] at this; omega)
        | (have := hset { w with pc := .done }; rw [e] at this; rw [← hx]; simp only [WPc.cost] at this; omega)

theorem cost_run {s0 s : St} {n k : Nat} (h : Run s0 n k s) : cost s + n ≤ cost s0 + 2 * k := by
  induction h with
  | refl => omega
  | step _ hs ih => have := cost_step hs; omega
  | spurious _ hs ih =>
    rename_i s1 s2 n k _
    have : cost s2 ≤ cost s1 + 2 := by
      unfold spurious at hs
      split at hs
      · rename_i hm
        injection hs with hs; subst hs
        simp only [cost, hm, MPc.cost]; omega
      · cases hs
    omega

/-- **C72** The server neither blocks nor runs for ever: an execution takes at most a number of steps given by the
connections (and the spurious wakeups), and when no thread can make a step all threads have finished and the server has
returned or is waiting for further connections. -/
theorem C72_server_does_not_hang (conns : List Conn) (n k : Nat) (s : St) (hr : Run (start conns) n k s) :
    n ≤ (conns.map Conn.cost).sum + 6 + 2 * k ∧ ((∀ w, step s w = none) → Idle s) := by
  constructor
  · have := cost_run hr
    simp [cost, start, workCost, MPc.cost] at this
    omega
  · intro hn
    exact Classical.byContradiction fun hc => by
      obtain ⟨w, hw⟩ := progress (inv_run hr) hc
      exact hw (hn w)

/-- Who closes a connection. -/
structure Fds (s : St) : Prop where
  open_ : ∀ x < s.accepted.length, x ∈ s.closed ∨ ∃ w ∈ s.ws, w.fd = x ∧ w.pc.closed = false
  noerr : ∀ f, Conn.createError f ∉ s.conns

theorem fds_run {conns : List Conn} (hc : ∀ f, Conn.createError f ∉ conns) {n k : Nat} {s : St} (hr : Run (start conns) n k s) : Fds s := by
  induction hr with
  | refl => exact ⟨by simp [start], hc⟩
  | spurious _ hs ih =>
    unfold spurious at hs
    split at hs
    · injection hs with hs; subst hs; exact ⟨ih.1, ih.2⟩
    · cases hs
  | step hr hs ih =>
    rename_i s1 s2 n k w
    have hI : Inv s1 := inv_run hr
    cases w with
    | main =>
      simp only [step, stepMain] at hs
      split at hs
      · split at hs
        · injection hs with hs; subst hs; exact ⟨ih.1, ih.2⟩
        · split at hs
          · cases hs
          · rename_i c cs hcs
            injection hs with hs; subst hs
            have hno : ∀ f, Conn.createError f ∉ cs := fun f hf => ih.2 f (by rw [hcs]; exact .tail _ hf)
            have base : ∀ x < s1.accepted.length, x ∈ s1.closed ++ [s1.accepted.length] ∨ ∃ w ∈ s1.ws, w.fd = x ∧ w.pc.closed = false := by
              intro x hx
              rcases ih.1 x hx with h | h
              · exact .inl (List.mem_append_left _ h)
              · exact .inr h
            have all : ∀ x < (s1.accepted ++ [s1.accepted.length]).length, x ∈ s1.closed ++ [s1.accepted.length] ∨ ∃ w ∈ s1.ws, w.fd = x ∧ w.pc.closed = false := by
              intro x hx
              simp at hx
              by_cases hlt : x < s1.accepted.length
              · exact base x hlt
              · left; have : x = s1.accepted.length := by omega
                simp [this]
            cases c with
            | acceptError => exact ⟨ih.1, hno⟩
            | typeError => exact ⟨all, hno⟩
            | userError f => exact ⟨all, hno⟩
            | initError f => exact ⟨all, hno⟩
            | createError f => exact (ih.2 f (by rw [hcs]; exact .head _)).elim
            | ok f n =>
              refine ⟨?_, hno⟩
              intro x hx
              simp [handle] at hx
              by_cases hlt : x < s1.accepted.length
              · rcases ih.1 x hlt with h | ⟨w, hw, h⟩
                · exact .inl h
                · exact .inr ⟨w, List.mem_append_left _ hw, h⟩
              · right
                refine ⟨⟨s1.accepted.length, .work n⟩, by simp [handle], ?_, rfl⟩
                simp only; omega
      all_goals
        first
          | (injection hs with hs; subst hs; exact ⟨ih.1, ih.2⟩)
          | (cases hs; done)
          | (split at hs <;> first | (cases hs; done) | (injection hs with hs; subst hs; exact ⟨ih.1, ih.2⟩))
    | worker i =>
      simp only [step, stepWorker] at hs
      split at hs
      · cases hs
      rename_i w hw
      have hmem := List.mem_of_getElem? hw
      have key : ∀ (p : WPc) (cl : List Nat), (∀ y ∈ s1.closed, y ∈ cl) → (p.closed = false ∨ w.fd ∈ cl) →
          ∀ x < s1.accepted.length, x ∈ cl ∨ ∃ v ∈ s1.ws.set i { w with pc := p }, v.fd = x ∧ v.pc.closed = false := by
        intro p cl hsub hp x hx
        rcases ih.1 x hx with h | ⟨v, hv, he, hcl⟩
        · exact .inl (hsub _ h)
        · obtain ⟨j, hj⟩ := List.getElem?_of_mem hv
          by_cases e : i = j
          · subst e
            rw [hw] at hj; injection hj with hj; subst hj
            rcases hp with hp | hp
            · refine .inr ⟨{ w with pc := p }, ?_, he, hp⟩
              exact List.mem_of_getElem? (i := i) (by rw [getElem?_set'' hw]; simp)
            · exact .inl (he ▸ hp)
          · exact .inr ⟨v, List.mem_of_getElem? (i := j) (by rw [getElem?_set'' hw]; simp [e, hj]), he, hcl⟩
      have hdone : w.pc.closed = true → w.fd ∈ s1.closed := (hI.clw w hmem).2
      split at hs
      · injection hs with hs; subst hs; exact ⟨key _ _ (fun _ h => h) (.inl rfl), ih.2⟩
      · injection hs with hs; subst hs; exact ⟨key _ _ (fun _ h => h) (.inl rfl), ih.2⟩
      · injection hs with hs; subst hs
        exact ⟨key _ _ (fun _ h => List.mem_append_left _ h) (.inr (by simp)), ih.2⟩
      · rename_i e
        split at hs <;> try contradiction
        injection hs with hs; subst hs; exact ⟨key _ _ (fun _ h => h) (.inr (hdone (by rw [e]; rfl))), ih.2⟩
      · rename_i e
        injection hs with hs; subst hs; exact ⟨key _ _ (fun _ h => h) (.inr (hdone (by rw [e]; rfl))), ih.2⟩
      · rename_i e
        injection hs with hs; subst hs; exact ⟨key _ _ (fun _ h => h) (.inr (hdone (by rw [e]; rfl))), ih.2⟩
      · cases hs

/-- What the server promises about connections: no connection is closed twice or while its request is being processed, only
accepted connections are closed, and when the server stops all of them have been closed. -/
def C73_full : Prop :=
  ∀ (conns : List Conn) (n k : Nat) (s : St), Run (start conns) n k s →
    s.closed.Nodup ∧ (∀ x ∈ s.closed, x ∈ s.accepted) ∧ (∀ w ∈ s.ws, ∀ m, w.pc = .work m → w.fd ∉ s.closed) ∧
      (Idle s → ∀ x ∈ s.accepted, x ∈ s.closed)

/-- **C73** Every connection is closed exactly once, after its request has been processed.  (Provided that threads can be
created.) -/
theorem C73_connections_closed_once_partial (conns : List Conn) (hc : ∀ f, Conn.createError f ∉ conns) (n k : Nat) (s : St)
    (hr : Run (start conns) n k s) :
    s.closed.Nodup ∧ (∀ x ∈ s.closed, x ∈ s.accepted) ∧ (∀ w ∈ s.ws, ∀ m, w.pc = .work m → w.fd ∉ s.closed) ∧
      (Idle s → ∀ x ∈ s.accepted, x ∈ s.closed) := by
  have h := inv_run hr
  have hf := fds_run hc hr
  refine ⟨h.cl, ?_, ?_, ?_⟩
  · intro x hx
    rw [h.acc]
    exact List.mem_range.2 (h.clacc x hx)
  · intro w hw m he
    rw [h.clw w hw, he]; simp [WPc.closed]
  · intro hi x hx
    rw [h.acc] at hx
    rcases hf.1 x (List.mem_range.1 hx) with e | ⟨w, hw, _, hcl⟩
    · exact e
    · rw [hi.1 w hw] at hcl; cases hcl

/-- If `pthread_create` fails the connection is never closed and the client waits for ever. -/
theorem C73_counterexample : ¬ C73_full := by
  intro h
  have hr : Run (start [.createError false]) 1 0 ⟨[], false, .loop, [], none, 0, [0], [], false⟩ :=
    Run.step (w := .main) (Run.refl _) rfl
  have := (h _ _ _ _ hr).2.2.2 ⟨by simp, .inr ⟨rfl, rfl, rfl⟩⟩ 0 (by simp)
  simp at this

/-- A concrete execution: two requests, the second one ends the server; the main thread sleeps and is woken up. -/
def demo : List Conn := [.typeError, .ok false 1, .ok true 0]

def runSched (s : St) : List Who → Option St
  | [] => some s
  | w :: l => (step s w).bind fun s' => runSched s' l

theorem run_of_sched {s0 s s' : St} {n k : Nat} (hr : Run s0 n k s) (l : List Who) (h : runSched s l = some s') : ∃ m, Run s0 m k s' := by
  induction l generalizing s n with
  | nil => injection h with h; subst h; exact ⟨n, hr⟩
  | cons w l ih =>
    simp only [runSched, Option.bind_eq_some_iff] at h
    obtain ⟨s1, h1, h2⟩ := h
    exact ih (hr.step h1) h2

def demoSched : List Who :=
  let w0 := Who.worker 0; let w1 := Who.worker 1; let m := Who.main
  [m, m, w0, w0, w0, w0, w0, w0, m, m, m, m, w1, w1, m, m, m, m, m, m, w1, w1, w1, m, m, m]

example : ((runSched (start demo) demoSched).map fun s => (s.main, s.closed, s.ws.map (·.pc))) = some (.done, [0, 1, 2], [.done, .done]) := by
  decide +kernel

/-- The counter goes below zero when a thread finishes before it has been counted. -/
example : ((runSched (start demo) (demoSched.take 8)).map fun s => s.cnt) = some (-1) := by decide +kernel

/-- The main thread has been asleep. -/
example : ((runSched (start demo) (demoSched.take 20)).map fun s => s.main) = some .asleep := by decide +kernel

end Thot.Server
