import Verif.Stack.Model
/-!
C33: the decoder stack.
-/
namespace Thot.Stack
open MMap

variable {α : Type}

/-- Specification: all hypotheses pushed, best first, ties in order of arrival (`MMap.ins` puts an element behind
all elements of at least its score). -/
def ranking (xs : List (Int × α)) : List (Int × α) := insAll [] xs

/-- The ranking is the only list that is sorted, a permutation per score and stable. -/
theorem ranking_spec (xs : List (Int × α)) : (ranking xs).Pairwise (fun a b => b.1 ≤ a.1) ∧ (ranking xs).Perm xs ∧
    ∀ k, (ranking xs).filter (fun e => e.1 == k) = xs.filter (fun e => e.1 == k) := by
  have h0 : Desc ([] : List (Int × α)) := by simp [Desc]
  refine ⟨desc_insAll h0 xs, by simpa [ranking] using perm_insAll [] xs, fun k => ?_⟩
  have := atKey_insAll h0 xs k
  simpa [atKey, ranking] using this

theorem trimLoop_eq (f : Nat) (s : Stack α) (hm : 1 ≤ s.max) (hf : s.cont.length < f) :
    trimLoop f s = some { s with cont := s.cont.take s.max } := by
  induction f generalizing s with
  | zero => omega
  | succ f ih =>
    rw [trimLoop]
    split <;> rename_i h
    · unfold removeLast
      rw [if_neg (by omega), if_neg (by omega), Option.bind_some, ih ⟨s.max, s.cont.dropLast⟩ hm (by simp only [List.length_dropLast]; omega)]
      simp only [List.dropLast_eq_take, List.take_take]
      congr 3; omega
    · rw [List.take_of_length_le (by omega)]

theorem take_ins_le (h : Int × α) (t : List (Int × α)) (m : Nat) :
    (ins h.1 h.2 (t.take m)).take m = (ins h.1 h.2 t).take m := by
  induction t generalizing m with
  | nil => simp
  | cons e r ih =>
    cases m with
    | zero => simp
    | succ m =>
      rw [List.take_succ_cons, ins, ins]
      split
      · rw [List.take_succ_cons, List.take_succ_cons]
        congr 1
        cases m with
        | zero => simp
        | succ m => rw [List.take_succ_cons, List.take_succ_cons, List.take_take]; congr 2; omega
      · rw [List.take_succ_cons, List.take_succ_cons, ih]

theorem take_ins_reject (h : Int × α) (t : List (Int × α)) (ht : ∀ e ∈ t, h.1 ≤ e.1) :
    (ins h.1 h.2 t).take t.length = t := by
  induction t with
  | nil => simp
  | cons e r ih =>
    have := ht e List.mem_cons_self
    rw [ins, if_neg (by omega), List.length_cons, List.take_succ_cons, ih fun x hx => ht x (List.mem_cons_of_mem _ hx)]

theorem insertTrim_eq (s : Stack α) (h : Int × α) (hm : 1 ≤ s.max) (hl : s.cont.length ≤ s.max) :
    insertTrim s h = some { s with cont := (ins h.1 h.2 s.cont).take s.max } := by
  unfold insertTrim
  simp only [length_ins]
  split <;> rename_i hh
  · unfold removeLast
    rw [if_neg (by simp [length_ins]), if_neg (by simp only [length_ins]; omega)]
    simp only [List.dropLast_eq_take, length_ins]
    congr 3; omega
  · rw [List.take_of_length_le (by rw [length_ins]; omega)]

theorem desc_last_le {t : List (Int × α)} (h : Desc t) {l : Int × α} (hl : t.getLast? = some l) :
    ∀ e ∈ t, l.1 ≤ e.1 := by
  intro e he
  cases t with
  | nil => cases he
  | cons a r =>
    rw [List.getLast?_eq_some_getLast (by simp)] at hl
    injection hl with hl
    have h' : Desc ((a :: r).dropLast ++ [(a :: r).getLast (by simp)]) := by
      rw [List.dropLast_concat_getLast]; exact h
    have hm : e ∈ (a :: r).dropLast ++ [(a :: r).getLast (by simp)] := by
      rw [List.dropLast_concat_getLast]; exact he
    rcases List.mem_append.1 hm with h1 | h1
    · have := (List.pairwise_append.1 h').2.2 e h1 _ (List.mem_singleton.2 rfl)
      rw [hl] at this; exact this
    · rw [List.mem_singleton.1 h1, hl]; omega

/-- **C33, one push**: the stack is cut to its maximum size (relevant only after the maximum was lowered), then
the new hypothesis is accepted exactly if there is room or it is strictly better than some kept hypothesis; the
result is the best `max` of the kept ones and the new one (ties: earlier first). No undefined behaviour. -/
theorem C33_push (s : Stack α) (h : Int × α) (hs : s.cont.Pairwise (fun a b => b.1 ≤ a.1)) :
    ∃ ok s', push s h = some (ok, s') ∧ s'.max = s.max ∧
      (ok = true ↔ s.max ≠ 0 ∧ (s.cont.length < s.max ∨ ∃ e ∈ s.cont.take s.max, e.1 < h.1)) ∧
      (s.max ≠ 0 → s'.cont = (ins h.1 h.2 (s.cont.take s.max)).take s.max) ∧
      (ok = false → s.max ≠ 0 → s'.cont = s.cont.take s.max) := by
  unfold push pushIter
  by_cases hm : s.max = 0
  · rw [if_pos hm]; exact ⟨false, s, rfl, rfl, by simp [hm], by simp [hm], by simp [hm]⟩
  · rw [if_neg hm, trimLoop_eq _ s (by omega) (by omega)]
    simp only
    have hd : Desc (s.cont.take s.max) := List.Pairwise.sublist (List.take_sublist _ _) hs
    have hit := insertTrim_eq { s with cont := s.cont.take s.max } h (by simp; omega) (by simp; omega)
    by_cases hc : s.cont = []
    · have he : empty ({ s with cont := s.cont.take s.max } : Stack α) = true := by simp [empty, hc]
      rw [he]
      simp only [Bool.not_true, Bool.false_eq_true, if_false]
      rw [hit]
      refine ⟨true, _, rfl, rfl, ?_, fun _ => rfl, by simp⟩
      simp [hm, hc]; omega
    · have hpos : 0 < s.cont.length := List.length_pos_iff.2 hc
      have he : empty ({ s with cont := s.cont.take s.max } : Stack α) = false := by
        simp [empty, hm, hc]
      rw [he]
      simp only [Bool.not_false, if_true]
      have hlne : s.cont.take s.max ≠ [] := by simp [hm, hc]
      have hlast : last ({ s with cont := s.cont.take s.max } : Stack α) = some ((s.cont.take s.max).getLast hlne) := by
        simp only [last]; exact List.getLast?_eq_some_getLast hlne
      rw [hlast]
      simp only
      have hle := desc_last_le hd (List.getLast?_eq_some_getLast hlne)
      have hmem : (s.cont.take s.max).getLast hlne ∈ s.cont.take s.max := List.getLast_mem hlne
      generalize (s.cont.take s.max).getLast hlne = l at hle hmem hlast
      have hlen : (s.cont.take s.max).length = min s.max s.cont.length := List.length_take
      split <;> rename_i hfull
      · refine ⟨false, _, rfl, rfl, ?_, ?_, by simp⟩
        · simp only [Bool.false_eq_true, false_iff, not_and, not_or, not_exists]
          intro _
          refine ⟨by omega, fun e he => ?_⟩
          have := hle e he; omega
        · intro _
          have h1 := take_ins_reject h (s.cont.take s.max) (fun e he => by have := hle e he; omega)
          rw [hfull.1] at h1; exact h1.symm
      · rw [hit]
        refine ⟨true, _, rfl, rfl, ?_, fun _ => rfl, by simp⟩
        simp only [true_iff]
        refine ⟨hm, ?_⟩
        by_cases hlt : s.cont.length < s.max
        · exact Or.inl hlt
        · right
          refine ⟨l, hmem, ?_⟩
          rw [hlen] at hfull
          by_cases h1 : l.1 < h.1
          · exact h1
          · exact absurd ⟨by omega, by omega⟩ hfull

/-- **C33.** After any pushes to a fresh stack of maximum size `m` the stack contains exactly the first `m` of the
ranking of everything pushed. -/
theorem C33_pushes (m : Nat) (xs : List (Int × α)) :
    ∃ s, pushAll ⟨m, []⟩ xs = some s ∧ s.max = m ∧ s.cont = (ranking xs).take m ∧ size s ≤ m := by
  have key : ∀ (xs ys : List (Int × α)) (s : Stack α), s.max = m → s.cont = (ranking ys).take m →
      ∃ s', pushAll s xs = some s' ∧ s'.max = m ∧ s'.cont = (ranking (ys ++ xs)).take m := by
    intro xs
    induction xs with
    | nil => intro ys s h1 h2; exact ⟨s, rfl, h1, by simpa using h2⟩
    | cons x xs ih =>
      intro ys s h1 h2
      have hs : s.cont.Pairwise (fun a b => b.1 ≤ a.1) := by
        rw [h2]; exact List.Pairwise.sublist (List.take_sublist _ _) (ranking_spec ys).1
      obtain ⟨ok, s1, g1, g2, _, g4, _⟩ := C33_push s x hs
      have hr : ranking (ys ++ [x]) = ins x.1 x.2 (ranking ys) := by simp [ranking, insAll]
      have hnext : s1.cont = (ranking (ys ++ [x])).take m := by
        by_cases hm : m = 0
        · subst hm
          have : s1 = s := by
            unfold push pushIter at g1; rw [if_pos h1] at g1; injection g1 with g1; injection g1 with _ g1; exact g1.symm
          rw [this, h2]; simp
        · rw [g4 (by omega), h1, h2, List.take_take, Nat.min_self, hr]
          exact take_ins_le x (ranking ys) m
      obtain ⟨s', k1, k2, k3⟩ := ih (ys ++ [x]) s1 (by omega) hnext
      refine ⟨s', ?_, k2, by simpa using k3⟩
      rw [pushAll, g1]; exact k1
  obtain ⟨s, h1, h2, h3⟩ := key xs [] ⟨m, []⟩ rfl (by simp [ranking, insAll])
  exact ⟨s, h1, h2, by simpa using h3, by unfold size; rw [h3]; simp; omega⟩

/-- **C33.** Popping everything returns the kept hypotheses in rank order, so in non-increasing score order, and
`top` is the best of all pushed. -/
theorem C33_pops (m : Nat) (xs : List (Int × α)) (s : Stack α) (h : pushAll ⟨m, []⟩ xs = some s) :
    (∀ f, size s ≤ f → popAll f s = some ((ranking xs).take m)) ∧
    (m ≠ 0 → xs ≠ [] → ∃ t, top s = some t ∧ t ∈ xs ∧ ∀ e ∈ xs, e.1 ≤ t.1) := by
  obtain ⟨s', h1, h2, h3, h4⟩ := C33_pushes m xs
  clear h4
  rw [h] at h1; injection h1 with h1; subst h1
  constructor
  · intro f hf
    rw [← h3]; clear h3 h h2
    induction f generalizing s with
    | zero =>
      have : s.cont = [] := List.eq_nil_of_length_eq_zero (by unfold size at hf; omega)
      rw [popAll, this]
    | succ f ih =>
      rw [popAll]
      cases hc : s.cont with
      | nil => simp [empty, hc]
      | cons e r =>
        simp only [empty, hc, List.length_cons, Nat.add_eq_zero_iff, Nat.one_ne_zero, and_false, decide_false,
          Bool.false_eq_true, if_false, pop, Option.bind_some]
        rw [ih ⟨s.max, r⟩ (by unfold size at hf ⊢; rw [hc] at hf; simp at hf ⊢; omega)]
        rfl
  · intro hm hne
    obtain ⟨r1, r2, _⟩ := ranking_spec xs
    cases hr : ranking xs with
    | nil => rw [hr] at r2; exact absurd r2.symm.eq_nil hne
    | cons t r =>
      refine ⟨t, ?_, r2.subset (by rw [hr]; exact List.mem_cons_self), ?_⟩
      · unfold top; rw [h3, hr]
        cases m with
        | zero => exact absurd rfl hm
        | succ m => rfl
      · intro e he
        have he' := r2.symm.subset he
        rw [hr] at he' r1
        rcases List.mem_cons.1 he' with rfl | h'
        · omega
        · exact (List.pairwise_cons.1 r1).1 e h'

/-- **C33.** In every state reached by any sequence of operations the hypotheses are in non-increasing score order
(so `C33_push` applies). -/
theorem C33_always_sorted (ops : List (Op α)) (s s' : Stack α) (hs : s.cont.Pairwise (fun a b => b.1 ≤ a.1))
    (h : run s ops = some s') : s'.cont.Pairwise (fun a b => b.1 ≤ a.1) := by
  induction ops generalizing s with
  | nil => cases h; exact hs
  | cons o os ih =>
    rw [run] at h
    cases hst : step s o with
    | none => rw [hst] at h; cases h
    | some u =>
      rw [hst] at h
      refine ih u ?_ h
      cases o with
      | push x =>
        obtain ⟨ok, s1, g1, g2, _, g4, _⟩ := C33_push s x hs
        simp only [step, g1, Option.map_some] at hst
        injection hst with hst; subst hst
        by_cases hm : s.max = 0
        · have : s1 = s := by
            unfold push pushIter at g1; rw [if_pos hm] at g1; injection g1 with g1; injection g1 with _ g1; exact g1.symm
          rw [this]; exact hs
        · rw [g4 hm]
          exact List.Pairwise.sublist (List.take_sublist _ _)
            (desc_ins (List.Pairwise.sublist (List.take_sublist _ _) hs))
      | pop =>
        simp only [step, pop] at hst
        cases hc : s.cont with
        | nil => rw [hc] at hst; cases hst
        | cons e r => rw [hc] at hst hs; cases hst; exact (List.pairwise_cons.1 hs).2
      | removeLast =>
        simp only [step, removeLast] at hst
        split at hst
        · cases hst; exact hs
        · split at hst
          · cases hst
          · cases hst; exact List.Pairwise.sublist (List.dropLast_sublist _) hs
      | setMax m => cases hst; exact hs
      | clear => cases hst; exact List.Pairwise.nil

example : (pushAll ⟨2, []⟩ [(3, 'a'), (5, 'b'), (3, 'c'), (4, 'd')]).map (·.cont) = some [(5, 'b'), (4, 'd')] := by
  decide +kernel

end Thot.Stack
