import Verif.Decoder.SerStep2

/-! Concurrent executions of requests give what sequential ones give (specification: `Spec.lean`). -/

namespace Thot.Decoder

variable {M U O : Type}

theorem ser_spurious {initU : M → U} {ops : List (Op M U O)} {A0 : Abs M U} {s s' : St M U O} {l : List (Nat × List O)} {A : Abs M U}
    {t : Nat} (hS : SInv initU ops A0 s l A) (h : spurious s t = some s') : SInv initU ops A0 s' l A := by
  have hinv := hS.inv.spurious h
  obtain ⟨th, ht, hm, h1, h2⟩ := spurious_spec h
  have he : s'.th = (s.th.map (w false)).set t { th with mode := .woken } := by
    rw [h2]; congr 1
    rw [show (w false : Thread M U O → Thread M U O) = id from funext fun _ => rfl, List.map_id]
  refine hS.silent ht he hinv rfl rfl rfl (hS.shape t th ht) (by rw [h1]) (by rw [h1]) (by rw [h1]) (by rw [h1]; exact fun _ h => h) Iff.rfl
    id ?_ id id (fun _ h => h)
  rw [h1]; exact fun _ h => h

theorem ser_run {initU : M → U} {ops : List (Op M U O)} {A0 : Abs M U} {s s' : St M U O} {l : List (Nat × List O)} {A : Abs M U}
    (hS : SInv initU ops A0 s l A) (h : Run initU s s') : ∃ l1 A', SInv initU ops A0 s' (l ++ l1) A' := by
  induction h with
  | refl => exact ⟨[], A, by rw [List.append_nil]; exact hS⟩
  | step _ h ih =>
    obtain ⟨l1, A', hS'⟩ := ih
    obtain ⟨l2, A2, hS2⟩ := ser_step hS' h
    exact ⟨l1 ++ l2, A2, by rw [← List.append_assoc]; exact hS2⟩
  | spurious _ h ih =>
    obtain ⟨l1, A', hS'⟩ := ih
    exact ⟨l1, A', ser_spurious hS' h⟩

theorem pend_code (op : Op M U O) (hs : op.Safe) : pend op (code op) := by
  cases op with
  | atomic u body => exact Or.inl rfl
  | initError u body => exact hs.elim
  | clear body => exact Or.inl rfl
  | print body => simp [pend, code]
  | session u body => simp [pend, code]
  | release u => exact hs.elim

theorem ser_start (initU : M → U) (mem : M) (users : List User) (umem : Nat → U) (ops : List (Op M U O)) (hu : users.Nodup)
    (h : ∀ op ∈ ops, op.Safe) :
    SInv initU ops (start mem users umem ops).sh.abs (start mem users umem ops) [] (start mem users umem ops).sh.abs := by
  have hg : ∀ (t : Nat) (th : Thread M U O), (start mem users umem ops).th[t]? = some th →
      th.op.Safe ∧ th.code = code th.op ∧ th.out = [] := by
    intro t th ht
    simp only [start, List.getElem?_map, Option.map_eq_some_iff] at ht
    obtain ⟨op, ho, rfl⟩ := ht
    exact ⟨h op (List.mem_of_getElem? ho), rfl, rfl⟩
  have hnx : ∀ op : Op M U O, op.Safe → excl (code op) = false ∧ needs (code op) = false := by
    intro op ho
    obtain ⟨h1, h2, h3, h4⟩ := good_code op ho
    have h5 : excl (code op) = false := by simp [excl, h2]
    refine ⟨h5, ?_⟩
    cases hn : needs (code op) with
    | false => rfl
    | true =>
      rcases h1.needs hn with h6 | h6
      · rw [h4] at h6; simp at h6
      · rw [h5] at h6; simp at h6
  refine ⟨inv_start mem users umem ops h, ?_, ?_, hu, ?_, .nil, by simp, ?_, by simp, ?_, ?_, ?_, ?_⟩
  · simp only [start, List.map_map]
    exact List.map_id' ops
  · intro t th ht
    obtain ⟨h1, h2, _⟩ := hg t th ht
    rw [h2]; exact shape_code _ h1
  · intro t th ht hn
    obtain ⟨h1, h2, _⟩ := hg t th ht
    rw [h2, (hnx _ h1).2] at hn; simp at hn
  · intro t th ht
    obtain ⟨h1, h2, _⟩ := hg t th ht
    have := pend_code _ h1
    rw [h2]; simp [this]
  · intro t th ht hp
    obtain ⟨h1, h2, _⟩ := hg t th ht
    rw [h2] at hp
    exact absurd (pend_code _ h1) hp
  · intro t th ht _
    obtain ⟨h1, h2, h3⟩ := hg t th ht
    rw [h2, h3]
    have hx := (hnx _ h1).1
    obtain ⟨_, h4, h5, _⟩ := good_code _ h1
    cases hop : th.op with
    | session u body =>
      rw [hop] at h5
      exact ⟨fun _ => ⟨rfl, rfl⟩, by simp [h5]⟩
    | atomic u body =>
      rw [hop] at hx
      exact ⟨fun _ => ⟨rfl, rfl⟩, by simp [hx]⟩
    | clear body =>
      rw [hop] at hx
      exact ⟨rfl, fun _ => macts_code_clear body, by simp [hx]⟩
    | print body =>
      rw [hop] at h4
      exact ⟨fun _ => ⟨rfl, peeks_code_print body⟩, by simp [h4]⟩
    | initError u body => rw [hop] at h1; exact h1.elim
    | release u => rw [hop] at h1; exact h1.elim
  · intro _
    refine ⟨rfl, ?_, ?_⟩
    · intro v hv
      simp only [Shared.abs, start] at hv ⊢
      by_cases hm : v ∈ users
      · exact hm
      · simp [hm] at hv
    · intro i v hv _
      have hm : v ∈ users := List.mem_of_getElem? hv
      have : users.idxOf v = i := nodup_getElem?_inj hu (idxOf_getElem? hm) hv
      simp [Shared.abs, start, Abs.data, hm, this]
  · intro u hu'
    left
    simp only [start] at hu'
    simp [Shared.abs, start, hu']

/-- The state of a decoder without requests in progress is that of the sequential execution. -/
theorem final_state {initU : M → U} {ops : List (Op M U O)} {A0 : Abs M U} {s : St M U O} {l : List (Nat × List O)} {A : Abs M U}
    (hS : SInv initU ops A0 s l A) (hd : ∀ th ∈ s.th, th.done) : s.sh.abs = A := by
  have hcode : ∀ (t : Nat) (th : Thread M U O), s.th[t]? = some th → th.code = [] := fun t th ht => hd th (List.mem_of_getElem? ht)
  have hG := hS.glob (fun t th ht => by rw [hcode t th ht]; rfl)
  have hh : ∀ i, s.sh.heldU i = none := by
    intro i
    cases h : s.sh.heldU i with
    | none => rfl
    | some t =>
      obtain ⟨th, ht, h1, _⟩ := (hS.inv.heldU _ _).1 h
      rw [hcode t th ht] at h1; simp [inUser] at h1
  have hreg : ∀ u ∈ s.sh.users, A.us u ≠ none := by
    intro u hu
    rcases hS.reg u hu with h | ⟨t, th, ht, _, _, h⟩
    · exact h
    · rw [hcode t th ht] at h; simp [counted, excl, holds] at h
  obtain ⟨m, us⟩ := A
  simp only [Shared.abs, Abs.mk.injEq]
  refine ⟨hG.mem, ?_⟩
  funext u
  split
  · rename_i hu
    rw [hG.data _ u (idxOf_getElem? hu) (hh _)]
    exact (data_of_some (initU := initU) (hreg u hu)).symm
  · rename_i hu
    cases h : us u with
    | none => rfl
    | some x => exact absurd (hG.known u (by simp [h])) hu

/-- **C64** Whatever the interleaving of the threads, the requests that have finished have the results of a
sequential execution of them (and of others that are already finished but for releasing mutexes), and once all
requests have finished the state of the decoder is the one that the sequential execution leaves. -/
theorem C64_requests_serializable (initU : M → U) (mem : M) (users : List User) (umem : Nat → U) (ops : List (Op M U O))
    (hu : users.Nodup) (hs : ∀ op ∈ ops, op.Safe) (s : St M U O) (hr : Run initU (start mem users umem ops) s) :
    ∃ l A, Seq initU ops (start mem users umem ops).sh.abs l A ∧ (l.map (·.1)).Nodup ∧
      (∀ (t : Nat) (th : Thread M U O), s.th[t]? = some th → th.done → (t, th.out) ∈ l) ∧
      (∀ (t : Nat) (o : List O), (t, o) ∈ l → ∃ th, s.th[t]? = some th ∧ th.out = o) ∧
      ((∀ th ∈ s.th, th.done) → s.sh.abs = A) := by
  obtain ⟨l, A, hS⟩ := ser_run (ser_start initU mem users umem ops hu hs) hr
  rw [List.nil_append] at hS
  refine ⟨l, A, hS.seq, hS.lnodup, ?_, hS.results, final_state hS⟩
  intro t th ht hd
  have hnp : ¬ pend th.op th.code := by
    rw [show th.code = [] from hd]
    cases th.op <;> simp [pend, noWait, excl, holds]
  have := (hS.committed t th ht).2 hnp
  simp only [List.mem_map] at this
  obtain ⟨⟨t', o⟩, ho, rfl⟩ := this
  obtain ⟨th2, ht2, rfl⟩ := hS.results t' o ho
  rw [ht] at ht2
  obtain rfl : th = th2 := by simpa using ht2
  exact ho

/-- **C65** The sequential order respects real time: a request that has finished before another one starts
comes before it. -/
theorem C65_serialization_in_real_time (initU : M → U) (mem : M) (users : List User) (umem : Nat → U) (ops : List (Op M U O))
    (hu : users.Nodup) (hs : ∀ op ∈ ops, op.Safe) (s1 s2 : St M U O) (hr1 : Run initU (start mem users umem ops) s1)
    (hr2 : Run initU s1 s2) :
    ∃ l1 l2 A, Seq initU ops (start mem users umem ops).sh.abs (l1 ++ l2) A ∧ ((l1 ++ l2).map (·.1)).Nodup ∧
      (∀ (t : Nat) (th : Thread M U O), s2.th[t]? = some th → th.done → (t, th.out) ∈ l1 ++ l2) ∧
      ((∀ th ∈ s2.th, th.done) → s2.sh.abs = A) ∧
      (∀ (t : Nat) (th : Thread M U O), s1.th[t]? = some th → th.done → (t, th.out) ∈ l1) ∧
      (∀ (t : Nat) (th : Thread M U O), s1.th[t]? = some th → th.code = code th.op → ∀ o, (t, o) ∉ l1) := by
  obtain ⟨l1, A1, hS1⟩ := ser_run (ser_start initU mem users umem ops hu hs) hr1
  rw [List.nil_append] at hS1
  obtain ⟨l2, A, hS⟩ := ser_run hS1 hr2
  have key : ∀ {s : St M U O} {l : List (Nat × List O)} {A : Abs M U}, SInv initU ops (start mem users umem ops).sh.abs s l A →
      ∀ (t : Nat) (th : Thread M U O), s.th[t]? = some th → th.done → (t, th.out) ∈ l := by
    intro s l A hS t th ht hd
    have hnp : ¬ pend th.op th.code := by
      rw [show th.code = [] from hd]
      cases th.op <;> simp [pend, noWait, excl, holds]
    have := (hS.committed t th ht).2 hnp
    simp only [List.mem_map] at this
    obtain ⟨⟨t', o⟩, ho, rfl⟩ := this
    obtain ⟨th2, ht2, rfl⟩ := hS.results t' o ho
    rw [ht] at ht2
    obtain rfl : th = th2 := by simpa using ht2
    exact ho
  refine ⟨l1, l2, A, hS.seq, hS.lnodup, key hS, final_state hS, key hS1, ?_⟩
  intro t th ht hc o ho
  have h1 := (hS1.committed t th ht).1 (List.mem_map.2 ⟨_, ho, rfl⟩)
  rw [hc] at h1
  have hop : th.op ∈ ops := by
    have : ops[t]? = some th.op := by rw [← hS1.opsEq, List.getElem?_map, ht]; rfl
    exact List.mem_of_getElem? this
  exact h1 (pend_code _ (hs _ hop))

end Thot.Decoder
