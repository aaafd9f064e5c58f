import Verif.MultiStack.Model
import Verif.Stack.Props
/-! Helper lemmas for the multi-stack (not part of the claims). -/
set_option linter.unusedSectionVars false
namespace Thot.MultiStack
open MMap AMap

variable {S D : Type} [DecidableEq S]

/-- The hypotheses retained in the sub-stack of class `k`, best first. -/
def elems (ms : MS S D) (k : Nat) : List (Elem S D) := ((lk ms.stacks k).map (·.cont)).getD []

theorem elems_put (ms : MS S D) (key : Nat) (stk : Stack.Stack (Nat × Hyp S D)) (k : Nat) :
    elems ({ ms with stacks := put ms.stacks key stk } : MS S D) k = if k = key then stk.cont else elems ms k := by
  unfold elems
  simp only [lk_put]
  split <;> rfl

structure Core (ms : MS S D) : Prop where
  smax : ∀ k s, lk ms.stacks k = some s → s.max = ms.max
  desc : ∀ k, Desc (elems ms k)
  len : ∀ k, (elems ms k).length ≤ ms.max
  el : ∀ k, ∀ e ∈ elems ms k, e.1 = e.2.2.score ∧ e.2.2.cls = k ∧ e.2.1 < ms.next ∧
    ∃ p, lk ms.dict e.2.2.state = some p
  hnd : ∀ k, (elems ms k).Pairwise (fun a b => a.2.1 ≠ b.2.1)
  dd : Distinct ms.dict
  didx : ∀ st p, lk ms.dict st = some p → p.1 < ms.dict.length
  dinj : ∀ a b p q, lk ms.dict a = some p → lk ms.dict b = some q → p.1 = q.1 → a = b
  rd : Distinct ms.recInfo
  rc : ∀ i k hd, lk ms.recInfo i = some (k, hd) →
    ∃ e ∈ elems ms k, e.2.1 = hd ∧ ∃ sc, lk ms.dict e.2.2.state = some (i, sc)

structure SortedOk (ms : MS S D) : Prop where
  srt : ms.sorted.Pairwise (· < ·)
  mem : ∀ k, k ∈ ms.sorted ↔ elems ms k ≠ []

/-- Elements of a stack left after the recombined hypothesis (if tracked in this very stack) is erased. -/
def afterRec (ms : MS S D) (key idx : Nat) : List (Elem S D) :=
  match lk ms.recInfo idx with
  | some (k', hd) => if k' = key then (elems ms key).filter (fun e => e.2.1 != hd) else elems ms key
  | none => elems ms key

theorem afterRec_sub (ms : MS S D) (key idx : Nat) : (afterRec ms key idx).Sublist (elems ms key) := by
  unfold afterRec
  split
  · split
    · exact List.filter_sublist
    · exact List.Sublist.refl _
  · exact List.Sublist.refl _

theorem mem_insSorted (k x : Nat) (l : List Nat) : x ∈ insSorted k l ↔ x = k ∨ x ∈ l := by
  induction l with
  | nil => simp [insSorted]
  | cons y ys ih =>
    rw [insSorted]
    split
    · simp
    · split
      · rename_i h; subst h; simp
      · simp only [List.mem_cons, ih]; grind

theorem sorted_insSorted (k : Nat) (l : List Nat) (h : l.Pairwise (· < ·)) : (insSorted k l).Pairwise (· < ·) := by
  induction l with
  | nil => simp [insSorted]
  | cons y ys ih =>
    obtain ⟨h1, h2⟩ := List.pairwise_cons.1 h
    rw [insSorted]
    split
    · refine List.pairwise_cons.2 ⟨?_, h⟩
      intro x hx
      rcases List.mem_cons.1 hx with rfl | hx
      · assumption
      · have := h1 x hx; omega
    · split
      · exact h
      · refine List.pairwise_cons.2 ⟨?_, ih h2⟩
        intro x hx
        rcases (mem_insSorted k x ys).1 hx with rfl | hx
        · omega
        · exact h1 x hx

theorem mem_delSorted (k x : Nat) (l : List Nat) : x ∈ delSorted k l ↔ x ≠ k ∧ x ∈ l := by
  simp [delSorted, and_comm]

theorem sorted_delSorted (k : Nat) (l : List Nat) (h : l.Pairwise (· < ·)) : (delSorted k l).Pairwise (· < ·) :=
  List.Pairwise.sublist List.filter_sublist h

/-- The last element of a full, descending list is the one pushed out by a strictly better insertion. -/
theorem take_ins_full {α : Type} (s : Int) (v : α) (t : List (Int × α)) (a : Int × α) (h : a.1 < s) :
    (ins s v (t ++ [a])).take (t.length + 1) = ins s v t := by
  induction t with
  | nil => simp [ins, h]
  | cons e r ih =>
    rw [List.cons_append, ins, ins]
    split
    · rw [List.length_cons, List.take_succ_cons, List.take_succ_cons]
      congr 2; simp
    · rw [List.length_cons, List.take_succ_cons, ih]

/-- What `pushOnSmtStackIdx` does, in a consistent state. -/
theorem pushIdx_spec {ms : MS S D} (hc : Core ms) (h : Hyp S D) (idx : Nat) (sc : Int)
    (hd : lk ms.dict h.state = some (idx, sc)) (stk : Stack.Stack (Nat × Hyp S D))
    (hs : lk ms.stacks h.cls = some stk) :
    ∃ ok ms', pushIdx ms h.cls h idx = some (ok, ms') ∧ ms'.max = ms.max ∧ ms'.bf = ms.bf ∧ ms'.sorted = ms.sorted ∧
      ms'.dict = ms.dict ∧ ms'.next = ms.next + 1 ∧
      (∀ k s, lk ms'.stacks k = some s → s.max = ms.max) ∧ (lk ms'.stacks h.cls).isSome ∧
      (∀ k, k ≠ h.cls → elems ms' k = elems ms k) ∧
      (ok = false → elems ms' h.cls = elems ms h.cls ∧ ms'.recInfo = ms.recInfo ∧
        afterRec ms h.cls idx = elems ms h.cls ∧
        (ms.max = 0 ∨ ((elems ms h.cls).length = ms.max ∧ ∀ e ∈ elems ms h.cls, h.score ≤ e.1))) ∧
      (ok = true → Distinct ms'.recInfo ∧ 0 < ms.max ∧
        (((afterRec ms h.cls idx).length < ms.max ∧
          elems ms' h.cls = ins h.score (ms.next, h) (afterRec ms h.cls idx) ∧
          ∀ i, lk ms'.recInfo i = if i = idx then some (h.cls, ms.next) else lk ms.recInfo i) ∨
         (∃ t l il sl, afterRec ms h.cls idx = elems ms h.cls ∧ elems ms h.cls = t ++ [l] ∧
          (elems ms h.cls).length = ms.max ∧ l.1 < h.score ∧
          lk ms.dict l.2.2.state = some (il, sl) ∧ elems ms' h.cls = ins h.score (ms.next, h) t ∧
          ∀ i, lk ms'.recInfo i = if i = il then none else if i = idx then some (h.cls, ms.next)
            else lk ms.recInfo i))) := by
  have hel : elems ms h.cls = stk.cont := by unfold elems; rw [hs]; rfl
  have hmax : stk.max = ms.max := hc.smax _ _ hs
  have hlen := hc.len h.cls
  have hdesc := hc.desc h.cls
  have hsub := afterRec_sub ms h.cls idx
  -- first step
  have h1 : ∃ stk1, eraseRecombined ms h.cls idx stk = some stk1 ∧ stk1.max = ms.max ∧ stk1.cont = afterRec ms h.cls idx ∧
           (afterRec ms h.cls idx = elems ms h.cls ∨ (afterRec ms h.cls idx).length < (elems ms h.cls).length) := by
    unfold afterRec eraseRecombined
    cases hr : lk ms.recInfo idx with
    | none => exact ⟨stk, rfl, hmax, hel.symm, Or.inl rfl⟩
    | some p =>
      obtain ⟨k', hnd⟩ := p
      simp only
      by_cases hk : k' = h.cls
      · rw [if_pos hk, if_pos hk]
        obtain ⟨e, he, hee, _⟩ := hc.rc idx k' hnd hr
        rw [hk, hel] at he
        unfold removeHandle
        rw [if_pos (List.any_eq_true.2 ⟨e, he, by simp [hee]⟩)]
        refine ⟨_, rfl, hmax, by rw [hel], Or.inr ?_⟩
        rw [hel]
        exact List.length_filter_lt_length_iff_exists.2 ⟨e, he, by simp [hee]⟩
      · rw [if_neg hk, if_neg hk]; exact ⟨stk, rfl, hmax, hel.symm, Or.inl rfl⟩
  obtain ⟨stk1, e1, m1, c1, hcase⟩ := h1
  have hd1 : stk1.cont.Pairwise (fun a b => b.1 ≤ a.1) := by
    rw [c1]; exact List.Pairwise.sublist hsub hdesc
  have hl1 : stk1.cont.length ≤ ms.max := by rw [c1]; exact Nat.le_trans hsub.length_le hlen
  obtain ⟨ok, stk2, p1, p2, p3, p4, p5⟩ := Stack.C33_push stk1 (h.score, (ms.next, h)) hd1
  have htk : stk1.cont.take stk1.max = stk1.cont := List.take_of_length_le (by omega)
  rw [htk] at p3 p4 p5
  simp only at p3 p4
  unfold pushIdx
  rw [hs]
  simp only [e1]
  unfold Stack.push at p1
  rw [p1]
  simp only
  have hsm : ∀ k s, lk (put ms.stacks h.cls stk2) k = some s → s.max = ms.max := by
    intro k s hk
    rw [lk_put] at hk
    split at hk
    · injection hk with hk; rw [← hk, p2, m1]
    · exact hc.smax k s hk
  have hne : ∀ (ms' : MS S D), ms'.stacks = put ms.stacks h.cls stk2 → ∀ k, k ≠ h.cls → elems ms' k = elems ms k := by
    intro ms' he k hk
    unfold elems; rw [he, lk_put, if_neg hk]
  have heq : ∀ (ms' : MS S D), ms'.stacks = put ms.stacks h.cls stk2 → elems ms' h.cls = stk2.cont := by
    intro ms' he
    unfold elems; rw [he, lk_put, if_pos rfl]; rfl
  cases ok with
  | false =>
    simp only [Bool.false_eq_true, if_false]
    have hrej : ms.max = 0 ∨ (stk1.cont.length = ms.max ∧ ∀ e ∈ stk1.cont, h.score ≤ e.1) := by
      by_cases hm0 : ms.max = 0
      · exact Or.inl hm0
      · right
        have : ¬ (stk1.max ≠ 0 ∧ (stk1.cont.length < stk1.max ∨ ∃ e ∈ stk1.cont, e.1 < h.score)) := by
          intro hh; have := p3.2 hh; cases this
        rw [m1] at this
        constructor
        · by_cases hlt : stk1.cont.length < ms.max
          · exact absurd ⟨hm0, Or.inl hlt⟩ this
          · omega
        · intro e he
          by_cases hlt : e.1 < h.score
          · exact absurd ⟨hm0, Or.inr ⟨e, he, hlt⟩⟩ this
          · omega
    have hnorec : afterRec ms h.cls idx = elems ms h.cls := by
      rcases hcase with hh | hh
      · exact hh
      · rw [← c1] at hh; rcases hrej with hm | ⟨hm, _⟩ <;> omega
    refine ⟨false, _, rfl, rfl, rfl, rfl, rfl, rfl, hsm, by simp, hne _ rfl, ?_, fun hh => by cases hh⟩
    intro _
    refine ⟨?_, rfl, hnorec, ?_⟩
    · rw [heq _ rfl]
      by_cases hm0 : stk1.max = 0
      · unfold Stack.pushIter at p1; rw [if_pos hm0] at p1
        injection p1 with p1; injection p1 with _ p1
        rw [← p1, c1, hnorec]
      · rw [p5 rfl hm0, c1, hnorec]
    · rw [c1, hnorec] at hrej; exact hrej
  | true =>
    simp only [if_true]
    obtain ⟨hm0, hacc⟩ := p3.1 rfl
    have p4 := p4 hm0
    rw [m1] at hm0 hacc p4
    by_cases hlt : stk1.cont.length < ms.max
    · have hnt : stk2.cont = ins h.score (ms.next, h) stk1.cont := by
        rw [p4, List.take_of_length_le (by rw [length_ins]; omega)]
      rw [if_neg (by rw [hnt, length_ins]; omega)]
      refine ⟨true, _, rfl, rfl, rfl, rfl, rfl, rfl, hsm, by simp, hne _ rfl, (fun hh => Bool.noConfusion hh), ?_⟩
      intro _
      refine ⟨distinct_put hc.rd _ _, by omega, Or.inl ⟨by rw [← c1]; exact hlt, ?_, ?_⟩⟩
      · rw [heq _ rfl, hnt, c1]
      · intro i; simp only [lk_put]
    · have hfull : stk1.cont.length = ms.max := by omega
      have hnorec : afterRec ms h.cls idx = elems ms h.cls := by
        rcases hcase with hh | hh
        · exact hh
        · rw [← c1] at hh; omega
      have hnil : stk1.cont ≠ [] := by intro h0; rw [h0] at hfull; simp at hfull; omega
      have hdl := List.dropLast_concat_getLast hnil
      have hlast : stk1.cont.getLast? = some (stk1.cont.getLast hnil) := List.getLast?_eq_some_getLast hnil
      have hle := Stack.desc_last_le hd1 hlast
      have hmem : stk1.cont.getLast hnil ∈ stk1.cont := List.getLast_mem hnil
      rw [hlast]
      generalize stk1.cont.getLast hnil = l at hdl hle hmem
      generalize ht : stk1.cont.dropLast = t at hdl
      have hl : l.1 < h.score := by
        rcases hacc with hh | ⟨e, he, hh⟩
        · omega
        · have := hle e he; omega
      have hcont : stk2.cont = ins h.score (ms.next, h) t := by
        have hlen2 : t.length + 1 = ms.max := by rw [← hfull, ← hdl]; simp
        rw [p4, ← hlen2, ← hdl]
        exact take_ins_full _ _ _ _ hl
      have hlen3 : stk1.cont.length = stk2.cont.length := by
        rw [hcont, length_ins, ← hdl]; simp
      rw [if_pos hlen3]
      have hmem' : l ∈ elems ms h.cls := by rw [← hnorec, ← c1]; exact hmem
      obtain ⟨⟨il, sl⟩, hp⟩ := (hc.el _ l hmem').2.2.2
      simp only [hp]
      have hrd := distinct_put hc.rd idx (h.cls, ms.next)
      refine ⟨true, _, rfl, rfl, rfl, rfl, rfl, rfl, hsm, by simp, hne _ rfl, (fun hh => Bool.noConfusion hh), ?_⟩
      intro _
      refine ⟨?_, by omega, Or.inr ⟨t, l, il, sl, hnorec, ?_, ?_, hl, hp, ?_, ?_⟩⟩
      · exact distinct_del hrd _
      · rw [← hnorec, ← c1]; exact hdl.symm
      · rw [← hnorec, ← c1]; exact hfull
      · rw [heq _ rfl, hcont]
      · intro i; simp only [lk_del hrd, lk_put]

/-- Index of a state: the existing one or the next free one. -/
def idxOf (ms : MS S D) (st : S) : Nat := ((lk ms.dict st).map (·.1)).getD ms.dict.length

/-- Outcome of a push in terms of the retained hypotheses, the dictionary and the recombination table. -/
inductive Outcome (ms ms' : MS S D) (h : Hyp S D) : Bool → Prop where
  | worse (i : Nat) (sc : Int) : lk ms.dict h.state = some (i, sc) → h.score < sc →
      (∀ k, elems ms' k = elems ms k) → (∀ st, lk ms'.dict st = lk ms.dict st) →
      (∀ i, lk ms'.recInfo i = lk ms.recInfo i) → Outcome ms ms' h false
  | full : (∀ i sc, lk ms.dict h.state = some (i, sc) → sc ≤ h.score) →
      (∀ k, elems ms' k = elems ms k) →
      (∀ st, lk ms'.dict st = if st = h.state then some (idxOf ms h.state, h.score) else lk ms.dict st) →
      (∀ i, lk ms'.recInfo i = lk ms.recInfo i) →
      afterRec ms h.cls (idxOf ms h.state) = elems ms h.cls →
      (ms.max = 0 ∨ ((elems ms h.cls).length = ms.max ∧ ∀ e ∈ elems ms h.cls, h.score ≤ e.1)) →
      Outcome ms ms' h false
  | room : (∀ i sc, lk ms.dict h.state = some (i, sc) → sc ≤ h.score) →
      (∀ k, k ≠ h.cls → elems ms' k = elems ms k) →
      (afterRec ms h.cls (idxOf ms h.state)).length < ms.max →
      elems ms' h.cls = ins h.score (ms.next, h) (afterRec ms h.cls (idxOf ms h.state)) →
      (∀ st, lk ms'.dict st = if st = h.state then some (idxOf ms h.state, h.score) else lk ms.dict st) →
      (∀ i, lk ms'.recInfo i = if i = idxOf ms h.state then some (h.cls, ms.next) else lk ms.recInfo i) →
      Outcome ms ms' h true
  | prune (t : List (Elem S D)) (l : Elem S D) (il : Nat) (sl : Int) :
      (∀ i sc, lk ms.dict h.state = some (i, sc) → sc ≤ h.score) →
      (∀ k, k ≠ h.cls → elems ms' k = elems ms k) →
      afterRec ms h.cls (idxOf ms h.state) = elems ms h.cls → elems ms h.cls = t ++ [l] →
      (elems ms h.cls).length = ms.max → l.1 < h.score →
      lk ms'.dict l.2.2.state = some (il, sl) →
      elems ms' h.cls = ins h.score (ms.next, h) t →
      (∀ st, lk ms'.dict st = if st = h.state then some (idxOf ms h.state, h.score) else lk ms.dict st) →
      (∀ i, lk ms'.recInfo i = if i = il then none else if i = idxOf ms h.state then some (h.cls, ms.next)
        else lk ms.recInfo i) →
      Outcome ms ms' h true

theorem core_congr {ms ms' : MS S D} (hc : Core ms) (hm : ms'.max = ms.max)
    (hs : ∀ k s, lk ms'.stacks k = some s → s.max = ms.max) (he : ∀ k, elems ms' k = elems ms k)
    (hd : ms'.dict = ms.dict) (hr : ms'.recInfo = ms.recInfo) (hn : ms.next ≤ ms'.next) : Core ms' := by
  refine ⟨?_, ?_, ?_, ?_, ?_, ?_, ?_, ?_, ?_, ?_⟩
  · intro k s h; rw [hm]; exact hs k s h
  · intro k; rw [he]; exact hc.desc k
  · intro k; rw [he, hm]; exact hc.len k
  · intro k e hh; rw [he] at hh; obtain ⟨a, b, c, d⟩ := hc.el k e hh; rw [hd]; exact ⟨a, b, by omega, d⟩
  · intro k; rw [he]; exact hc.hnd k
  · rw [hd]; exact hc.dd
  · rw [hd]; exact hc.didx
  · rw [hd]; exact hc.dinj
  · rw [hr]; exact hc.rd
  · intro i k x hh; rw [hr] at hh; rw [he, hd]; exact hc.rc i k x hh

theorem lk_dict_idx {ms : MS S D} {st : S} {i : Nat} {sc : Int} (h : lk ms.dict st = some (i, sc)) :
    idxOf ms st = i := by unfold idxOf; rw [h]; rfl

/-- Updating the dictionary entry of a state keeps consistency. -/
theorem core_dict {ms : MS S D} (hc : Core ms) (st : S) (sc : Int) :
    Core { ms with dict := put ms.dict st (idxOf ms st, sc) } := by
  have hlk : ∀ a, lk (put ms.dict st (idxOf ms st, sc)) a = if a = st then some (idxOf ms st, sc) else lk ms.dict a :=
    fun a => lk_put _ _ _ _
  have hlen : ms.dict.length ≤ (put ms.dict st (idxOf ms st, sc)).length := by
    rw [length_put]; split <;> omega
  have hidx : idxOf ms st < (put ms.dict st (idxOf ms st, sc)).length := by
    rw [length_put]
    cases h : lk ms.dict st with
    | none => simp [idxOf, h]
    | some p => have := hc.didx st p h; simp [idxOf, h]; exact this
  have hinj : ∀ b q, lk ms.dict b = some q → idxOf ms st = q.1 → st = b := by
    intro b q hb he
    cases h : lk ms.dict st with
    | none =>
      have := hc.didx b q hb
      simp [idxOf, h] at he; omega
    | some p => simp [idxOf, h] at he; exact hc.dinj _ _ _ _ h hb he
  refine ⟨hc.smax, hc.desc, hc.len, ?_, hc.hnd, distinct_put hc.dd _ _, ?_, ?_, hc.rd, ?_⟩
  · intro k e he
    obtain ⟨a, b, c, p, d⟩ := hc.el k e he
    refine ⟨a, b, c, ?_⟩
    simp only [hlk]
    split
    · exact ⟨_, rfl⟩
    · exact ⟨p, d⟩
  · intro a p hp
    simp only [hlk] at hp
    split at hp
    · injection hp with hp; rw [← hp]; exact hidx
    · exact Nat.lt_of_lt_of_le (hc.didx a p hp) hlen
  · intro a b p q ha hb hpq
    simp only [hlk] at ha hb
    split at ha <;> split at hb <;> rename_i h1 h2
    · rw [h1, h2]
    · injection ha with ha; rw [← ha] at hpq; rw [h1]; exact hinj b q hb hpq
    · injection hb with hb; rw [← hb] at hpq; rw [h2]; exact (hinj a p ha hpq.symm).symm
    · exact hc.dinj a b p q ha hb hpq
  · intro i k hd hh
    obtain ⟨e, he, hee, sc', hsc⟩ := hc.rc i k hd hh
    refine ⟨e, he, hee, ?_⟩
    simp only [hlk]
    split
    · rename_i h; rw [h] at hsc; exact ⟨sc, by rw [lk_dict_idx hsc]⟩
    · exact ⟨sc', hsc⟩

theorem hnd_ins {t : List (Elem S D)} {n : Nat} (h1 : t.Pairwise (fun a b => a.2.1 ≠ b.2.1))
    (h2 : ∀ e ∈ t, e.2.1 < n) (s : Int) (h : Hyp S D) : (ins s (n, h) t).Pairwise (fun a b => a.2.1 ≠ b.2.1) := by
  have hp := perm_ins s (n, h) t
  refine (hp.pairwise_iff ?_).2 (List.pairwise_cons.2 ⟨?_, h1⟩)
  · intro a b hh he; exact hh he.symm
  · intro e he hh; have := h2 e he; simp only at hh; omega

/-- Insertion of the new hypothesis into `base` (a sub-list of the old contents) keeps consistency, provided the
new recombination table points into the new contents. -/
theorem core_insert {ms ms' : MS S D} (hc : Core ms) (h : Hyp S D) (base : List (Elem S D))
    (hsub : base.Sublist (elems ms h.cls)) (hlen : base.length < ms.max)
    (hm : ms'.max = ms.max) (hs : ∀ k s, lk ms'.stacks k = some s → s.max = ms.max)
    (hne : ∀ k, k ≠ h.cls → elems ms' k = elems ms k)
    (heq : elems ms' h.cls = ins h.score (ms.next, h) base)
    (hd : ms'.dict = ms.dict) (hdh : ∃ p, lk ms.dict h.state = some p) (hn : ms'.next = ms.next + 1)
    (hrd : Distinct ms'.recInfo)
    (hrc : ∀ i k hd, lk ms'.recInfo i = some (k, hd) →
      ∃ e ∈ elems ms' k, e.2.1 = hd ∧ ∃ sc, lk ms'.dict e.2.2.state = some (i, sc)) : Core ms' := by
  refine ⟨?_, ?_, ?_, ?_, ?_, by rw [hd]; exact hc.dd, by rw [hd]; exact hc.didx, by rw [hd]; exact hc.dinj, hrd, hrc⟩
  · intro k s hk; rw [hm]; exact hs k s hk
  · intro k
    by_cases hk : k = h.cls
    · rw [hk, heq]; exact desc_ins (List.Pairwise.sublist hsub (hc.desc _))
    · rw [hne k hk]; exact hc.desc k
  · intro k
    by_cases hk : k = h.cls
    · rw [hk, heq, length_ins, hm]; omega
    · rw [hne k hk, hm]; exact hc.len k
  · intro k e he
    by_cases hk : k = h.cls
    · rw [hk, heq] at he
      rcases mem_ins.1 he with rfl | he
      · exact ⟨rfl, hk.symm, by simp only; omega, by rw [hd]; exact hdh⟩
      · obtain ⟨a, b, c, d⟩ := hc.el _ e (hsub.subset he)
        exact ⟨a, by rw [b, hk], by omega, by rw [hd]; exact d⟩
    · rw [hne k hk] at he
      obtain ⟨a, b, c, d⟩ := hc.el k e he
      exact ⟨a, b, by omega, by rw [hd]; exact d⟩
  · intro k
    by_cases hk : k = h.cls
    · rw [hk, heq]
      exact hnd_ins (List.Pairwise.sublist hsub (hc.hnd _)) (fun e he => (hc.el _ e (hsub.subset he)).2.2.1) _ _
    · rw [hne k hk]; exact hc.hnd k

/-- `pushOnSmtStackIdx` after the dictionary update. -/
theorem pushIdx_full {ms : MS S D} (hc : Core ms) (h : Hyp S D) (sc : Int) (stk : Stack.Stack (Nat × Hyp S D))
    (hs : lk ms.stacks h.cls = some stk)
    (hcur : ∀ i sc, lk ms.dict h.state = some (i, sc) → sc ≤ h.score) :
    ∃ ok ms', pushIdx { ms with dict := put ms.dict h.state (idxOf ms h.state, h.score) } h.cls h (idxOf ms h.state)
        = some (ok, ms') ∧ Core ms' ∧ ms'.max = ms.max ∧ ms'.bf = ms.bf ∧ ms'.sorted = ms.sorted ∧
        (lk ms'.stacks h.cls).isSome ∧ Outcome ms ms' h ok := by
  have hcd := core_dict hc h.state h.score
  have hlkd : lk (put ms.dict h.state (idxOf ms h.state, h.score)) h.state = some (idxOf ms h.state, h.score) :=
    lk_put_self _ _ _
  obtain ⟨ok, ms', g1, g2, g3, g4, g5, g6, g7, g8, g9, g10, g11⟩ := pushIdx_spec hcd h _ _ hlkd stk hs
  have hdl : ∀ st, lk ms'.dict st = if st = h.state then some (idxOf ms h.state, h.score) else lk ms.dict st := by
    intro st; rw [g5]; exact lk_put _ _ _ _
  have haft : afterRec ({ ms with dict := put ms.dict h.state (idxOf ms h.state, h.score) } : MS S D) h.cls
      (idxOf ms h.state) = afterRec ms h.cls (idxOf ms h.state) := rfl
  have hel : ∀ k, elems ({ ms with dict := put ms.dict h.state (idxOf ms h.state, h.score) } : MS S D) k
      = elems ms k := fun _ => rfl
  refine ⟨ok, ms', g1, ?_, g2, g3, g4, g8, ?_⟩
  · cases ok with
    | false =>
      obtain ⟨a, b, _, _⟩ := g10 rfl
      refine core_congr hcd g2 g7 ?_ g5 b (by rw [g6]; exact Nat.le_succ _)
      intro k
      by_cases hk : k = h.cls
      · rw [hk]; exact a
      · exact g9 k hk
    | true =>
      obtain ⟨hrd, hpos, hcase⟩ := g11 rfl
      rcases hcase with ⟨a, b, c⟩ | ⟨t, l, il, sl, a, b, c, d, e, f, g⟩
      · refine core_insert hcd h _ (afterRec_sub _ _ _) a g2 g7 g9 b g5 ⟨_, hlkd⟩ g6 hrd ?_
        intro i k hd hh
        rw [c i] at hh
        split at hh <;> rename_i hi
        · injection hh with hh; injection hh with h1 h2
          refine ⟨(h.score, (ms.next, h)), ?_, h2, h.score, ?_⟩
          · rw [← h1, b]; exact mem_ins.2 (Or.inl rfl)
          · rw [hdl]; simp [hi]
        · obtain ⟨x, hx, hxh, sx, hsx⟩ := hcd.rc i k hd hh
          refine ⟨x, ?_, hxh, sx, by rw [g5]; exact hsx⟩
          by_cases hk : k = h.cls
          · subst hk
            rw [b]
            refine mem_ins.2 (Or.inr ?_)
            rw [haft]
            unfold afterRec
            split
            · rename_i k' hd' hr
              split
              · refine List.mem_filter.2 ⟨hx, ?_⟩
                rename_i hk'
                obtain ⟨y, hy, hyh, sy, hsy⟩ := hcd.rc _ k' hd' hr
                rw [hk'] at hy
                by_cases hxy : x.2.1 = hd'
                · exfalso
                  have hxyeq : x = y := by
                    have hp := hcd.hnd h.cls
                    apply Classical.byContradiction
                    intro hn
                    have : ∀ (l : List (Elem S D)), l.Pairwise (fun a b => a.2.1 ≠ b.2.1) → x ∈ l → y ∈ l → False := by
                      intro l
                      induction l with
                      | nil => intro _ h _; cases h
                      | cons z l ih =>
                        intro hp h1 h2
                        obtain ⟨p1, p2⟩ := List.pairwise_cons.1 hp
                        rcases List.mem_cons.1 h1 with rfl | h1 <;> rcases List.mem_cons.1 h2 with h2 | h2
                        · exact hn h2.symm
                        · exact p1 y h2 (by rw [hxy, hyh])
                        · rw [h2] at hyh; exact p1 x h1 (by rw [hxy, hyh])
                        · exact ih p2 h1 h2
                    exact this _ hp hx hy
                  rw [hxyeq, hsy] at hsx
                  injection hsx with hsx; injection hsx with hsx _
                  exact hi hsx.symm
                · simpa using hxy
              · exact hx
            · exact hx
          · rw [g9 k hk]; exact hx
      · have hsubt : t.Sublist (elems ms h.cls) := by
          have := b; rw [hel] at this; rw [this]; exact List.sublist_append_left _ _
        have htl : t.length < ms.max := by
          have hl2 : (elems ms h.cls).length = t.length + 1 := by
            have := b; rw [hel] at this; rw [this]; simp
          have := c; rw [hel] at this; simp only at this; omega
        refine core_insert hcd h t hsubt htl g2 g7 g9 f g5 ⟨_, hlkd⟩ g6 hrd ?_
        intro i k hd hh
        rw [g i] at hh
        split at hh
        · cases hh
        · rename_i hil
          split at hh <;> rename_i hi
          · injection hh with hh; injection hh with h1 h2
            refine ⟨(h.score, (ms.next, h)), ?_, h2, h.score, ?_⟩
            · rw [← h1, f]; exact mem_ins.2 (Or.inl rfl)
            · rw [hdl]; simp [hi]
          · obtain ⟨x, hx, hxh, sx, hsx⟩ := hcd.rc i k hd hh
            refine ⟨x, ?_, hxh, sx, by rw [g5]; exact hsx⟩
            by_cases hk : k = h.cls
            · subst hk
              rw [f]
              refine mem_ins.2 (Or.inr ?_)
              rw [b] at hx
              rcases List.mem_append.1 hx with hx | hx
              · exact hx
              · exfalso
                rw [List.mem_singleton.1 hx, e] at hsx
                injection hsx with hsx; injection hsx with hsx _
                exact hil hsx.symm
            · rw [g9 k hk]; exact hx
  · cases ok with
    | false =>
      obtain ⟨a, b, c', c⟩ := g10 rfl
      refine .full hcur ?_ hdl (fun i => by rw [b]) c' c
      intro k
      by_cases hk : k = h.cls
      · rw [hk]; exact a
      · exact g9 k hk
    | true =>
      obtain ⟨hrd, hpos, hcase⟩ := g11 rfl
      rcases hcase with ⟨a, b, c⟩ | ⟨t, l, il, sl, a, b, c, d, e, f, g⟩
      · exact .room hcur g9 a b hdl c
      · exact .prune t l il sl hcur g9 a b c d (by rw [g5]; exact e) f hdl g

theorem pushOn_spec {ms : MS S D} (hc : Core ms) (h : Hyp S D) (stk : Stack.Stack (Nat × Hyp S D))
    (hs : lk ms.stacks h.cls = some stk) :
    ∃ ok ms', pushOnSmtStack ms h.cls h = some (ok, ms') ∧ Core ms' ∧ ms'.max = ms.max ∧ ms'.bf = ms.bf ∧
      ms'.sorted = ms.sorted ∧ (lk ms'.stacks h.cls).isSome ∧ Outcome ms ms' h ok := by
  unfold pushOnSmtStack
  cases hcur : lk ms.dict h.state with
  | none =>
    have hi : idxOf ms h.state = ms.dict.length := by simp [idxOf, hcur]
    have := pushIdx_full hc h 0 stk hs (by intro i sc hh; rw [hcur] at hh; cases hh)
    rw [hi] at this
    exact this
  | some p =>
    obtain ⟨i, sc⟩ := p
    simp only
    split
    · rename_i hgt
      exact ⟨false, ms, rfl, hc, rfl, rfl, rfl, by rw [hs]; rfl,
        .worse i sc hcur (by omega) (fun _ => rfl) (fun _ => rfl) (fun _ => rfl)⟩
    · rename_i hgt
      have hi : idxOf ms h.state = i := lk_dict_idx hcur
      have := pushIdx_full hc h 0 stk hs (by
        intro i' sc' hh; rw [hcur] at hh; injection hh with hh; injection hh with _ hh; omega)
      rw [hi] at this
      exact this

theorem Outcome.base {ms ms1 ms' : MS S D} {h : Hyp S D} {ok : Bool} (ho : Outcome ms1 ms' h ok)
    (he : ∀ k, elems ms1 k = elems ms k) (hd : ms1.dict = ms.dict) (hr : ms1.recInfo = ms.recInfo)
    (hm : ms1.max = ms.max) (hn : ms1.next = ms.next) : Outcome ms ms' h ok := by
  have hi : idxOf ms1 h.state = idxOf ms h.state := by unfold idxOf; rw [hd]
  have ha : afterRec ms1 h.cls (idxOf ms1 h.state) = afterRec ms h.cls (idxOf ms h.state) := by
    unfold afterRec; rw [hr, hi, he]
  cases ho with
  | worse i sc a b c d e =>
    exact .worse i sc (by rw [← hd]; exact a) b (fun k => by rw [c, he]) (fun k => by rw [d, hd])
      (fun k => by rw [e, hr])
  | full a b c d g e =>
    refine .full (by rw [← hd]; exact a) (fun k => by rw [b, he]) (fun k => by rw [c, hi, hd])
      (fun k => by rw [d, hr]) (by rw [← ha, g, he]) ?_
    rw [hm, he] at e; exact e
  | room a b c d e f =>
    refine .room (by rw [← hd]; exact a) (fun k hk => by rw [b k hk, he]) ?_ ?_ (fun k => by rw [e, hi, hd])
      (fun k => by rw [f, hi, hr, hn])
    · rw [← ha, ← hm]; exact c
    · rw [d, ha, hn]
  | prune t l il sl a b c d e f g i j k =>
    refine .prune t l il sl (by rw [← hd]; exact a) (fun k hk => by rw [b k hk, he]) ?_ ?_ ?_ f g ?_
      (fun x => by rw [j, hi, hd]) (fun x => by rw [k, hi, hr, hn])
    · rw [← ha, c, he]
    · rw [← he, d]
    · rw [← he, e, hm]
    · rw [i, hn]

/-- Any push, in a consistent state. -/
theorem push_spec {ms : MS S D} (hc : Core ms) (hso : SortedOk ms) (h : Hyp S D) :
    ∃ ok ms', push ms h = some (ok, ms') ∧ Core ms' ∧ SortedOk ms' ∧ ms'.max = ms.max ∧ ms'.bf = ms.bf ∧
      Outcome ms ms' h ok := by
  unfold push
  -- the sub-stack is created first if necessary
  have h1 : ∃ ms1 stk, ensureStack ms h.cls = ms1 ∧
      lk ms1.stacks h.cls = some stk ∧ Core ms1 ∧ (∀ k, elems ms1 k = elems ms k) ∧ ms1.dict = ms.dict ∧
      ms1.recInfo = ms.recInfo ∧ ms1.max = ms.max ∧ ms1.next = ms.next ∧ ms1.bf = ms.bf ∧
      ms1.sorted.Pairwise (· < ·) ∧ (∀ k, k ≠ h.cls → (k ∈ ms1.sorted ↔ k ∈ ms.sorted)) ∧
      (elems ms h.cls ≠ [] → h.cls ∈ ms1.sorted) := by
    unfold ensureStack
    cases hk : lk ms.stacks h.cls with
    | some stk =>
      exact ⟨ms, stk, rfl, hk, hc, fun _ => rfl, rfl, rfl, rfl, rfl, rfl, hso.srt, fun _ _ => Iff.rfl,
        fun hh => (hso.mem _).2 hh⟩
    | none =>
      have he : ∀ (srt : List Nat) (k : Nat),
          elems ({ ms with stacks := put ms.stacks h.cls ⟨ms.max, []⟩, sorted := srt } : MS S D) k = elems ms k := by
        intro srt k
        unfold elems
        simp only [lk_put]
        split
        · rename_i h'; rw [h', hk]; rfl
        · rfl
      refine ⟨_, ⟨ms.max, []⟩, rfl, by simp, ?_, he _, rfl, rfl, rfl, rfl, rfl, sorted_insSorted _ _ hso.srt, ?_, ?_⟩
      · refine core_congr hc rfl ?_ (he _) rfl rfl (Nat.le_refl _)
        intro k s hh
        simp only [lk_put] at hh
        split at hh
        · injection hh with hh; rw [← hh]
        · exact hc.smax k s hh
      · intro k hk; rw [mem_insSorted]; simp [hk]
      · intro _; rw [mem_insSorted]; exact Or.inl rfl
  obtain ⟨ms1, stk, e1, e2, e3, e4, e5, e6, e7, e8, e9, e10, e11, e12⟩ := h1
  simp only [e1]
  obtain ⟨ok, ms2, g1, g2, g3, g4, g5, g6, g7⟩ := pushOn_spec e3 h stk e2
  have ho : Outcome ms ms2 h ok := g7.base e4 e5 e6 e7 e8
  have hoth : ∀ k, k ≠ h.cls → elems ms2 k = elems ms k := by
    intro k hk
    cases ho with
    | worse i sc a b c d e => exact c k
    | full a b c d g e => exact b k
    | room a b c d e f => exact b k hk
    | prune t l il sl a b => exact b k hk
  rw [g1]
  -- changing `sorted` only
  have hmono : ∀ srt : List Nat, srt.Pairwise (· < ·) → (∀ k, k ∈ srt ↔ elems ms2 k ≠ []) →
      Core ({ ms2 with sorted := srt } : MS S D) ∧ SortedOk ({ ms2 with sorted := srt } : MS S D) ∧
      Outcome ms ({ ms2 with sorted := srt } : MS S D) h ok := by
    intro srt hp hm
    refine ⟨core_congr g2 rfl (fun k s hh => g2.smax k s hh) (fun _ => rfl) rfl rfl (Nat.le_refl _),
      ⟨hp, fun k => hm k⟩, ?_⟩
    cases ho with
    | worse i sc a b c d e => exact .worse i sc a b c d e
    | full a b c d g e => exact .full a b c d g e
    | room a b c d e f => exact .room a b c d e f
    | prune t l il sl a b c d e f g i j k => exact .prune t l il sl a b c d e f g i j k
  have hprev : ∀ m : MS S D, ((lk m.stacks h.cls).map (·.cont.length)).getD 0 = (elems m h.cls).length := by
    intro m; unfold elems; cases lk m.stacks h.cls <;> rfl
  have hsame : ({ ms2 with sorted := ms2.sorted } : MS S D) = ms2 := rfl
  have hmem2 : ∀ k, k ≠ h.cls → (k ∈ ms2.sorted ↔ elems ms2 k ≠ []) := by
    intro k hk; rw [g5, e11 k hk, hoth k hk]; exact hso.mem k
  cases ok with
  | true =>
    simp only
    have hne : elems ms2 h.cls ≠ [] := by
      have : ∀ (t : List (Elem S D)), ins h.score (ms.next, h) t ≠ [] := by
        intro t ht; have := congrArg List.length ht; rw [length_ins] at this; simp at this
      cases ho with
      | room a b c d e f => rw [d]; exact this _
      | prune t l il sl a b c d e f g i j k => rw [i]; exact this _
    rw [hprev, e4]
    by_cases hp : (elems ms h.cls).length = 0
    · rw [if_pos hp]
      obtain ⟨k1, k2, k3⟩ := hmono (insSorted h.cls ms2.sorted) (sorted_insSorted _ _ (by rw [g5]; exact e10)) (by
        intro k; rw [mem_insSorted]
        by_cases hk : k = h.cls
        · subst hk; simp [hne]
        · rw [← hmem2 k hk]; simp [hk])
      exact ⟨true, _, rfl, k1, k2, by rw [← e7, ← g3], by rw [← e9, ← g4], k3⟩
    · rw [if_neg hp]
      have hin : h.cls ∈ ms2.sorted := by
        rw [g5]; exact e12 (by intro h0; rw [h0] at hp; exact hp rfl)
      obtain ⟨k1, k2, k3⟩ := hmono ms2.sorted (by rw [g5]; exact e10) (by
        intro k
        by_cases hk : k = h.cls
        · subst hk; simp [hne, hin]
        · exact hmem2 k hk)
      exact ⟨true, _, rfl, k1, k2, by rw [← e7, ← g3], by rw [← e9, ← g4], k3⟩
  | false =>
    simp only
    have hcl : elems ms2 h.cls = elems ms h.cls := by
      cases ho with
      | worse i sc a b c d e => exact c _
      | full a b c d g e => exact b _
    rw [hprev]
    by_cases hp : (elems ms2 h.cls).length = 0
    · rw [if_pos hp]
      have hnil := List.eq_nil_of_length_eq_zero hp
      obtain ⟨k1, k2, k3⟩ := hmono (delSorted h.cls ms2.sorted) (sorted_delSorted _ _ (by rw [g5]; exact e10)) (by
        intro k; rw [mem_delSorted]
        by_cases hk : k = h.cls
        · subst hk; simp [hnil]
        · rw [← hmem2 k hk]; simp [hk])
      exact ⟨false, _, rfl, k1, k2, by rw [← e7, ← g3], by rw [← e9, ← g4], k3⟩
    · rw [if_neg hp]
      have hne : elems ms2 h.cls ≠ [] := by intro h0; rw [h0] at hp; exact hp rfl
      obtain ⟨k1, k2, k3⟩ := hmono ms2.sorted (by rw [g5]; exact e10) (by
        intro k
        by_cases hk : k = h.cls
        · subst hk
          have : h.cls ∈ ms2.sorted := by rw [g5]; exact e12 (by rw [← hcl]; exact hne)
          simp [hne, this]
        · exact hmem2 k hk)
      exact ⟨false, _, rfl, k1, k2, by rw [← e7, ← g3], by rw [← e9, ← g4], k3⟩

end Thot.MultiStack
