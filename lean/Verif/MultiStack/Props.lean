import Verif.MultiStack.Ops
/-!
Properties C34 (recombination), C35 (pop order), C36 (removal of the worst hypothesis), C44 (memory safety of the
multi-stack) and C45 (`top` agrees with `pop`).

Observable state: `elems ms k` is the content of the sub-stack of class `k`, best first (what iterating over it
yields); an element is (score, (unique handle, hypothesis)).
-/
set_option linter.unusedSectionVars false
namespace Thot.MultiStack
open MMap AMap

variable {S D : Type} [DecidableEq S]

/-! ### Specification: reachable states -/

/-- Operations covered: pushes of hypotheses satisfying `p`, and changes of the maximum size that do not shrink it
unless nothing is stored. -/
def Allowed (p : Hyp S D → Prop) (ms : MS S D) : Op S D → Prop
  | .push h => p h
  | .setMax m => ms.max ≤ m ∨ empty ms = true
  | _ => True

/-- Hypotheses pushed since the state dictionary was last cleared. -/
def hist (P : List (Hyp S D)) : Op S D → List (Hyp S D)
  | .push h => P ++ [h]
  | .clearAll => []
  | _ => P

/-- States reachable from a newly created multi-stack (with its own dictionary), with the hypotheses pushed. -/
inductive Reach (p : Hyp S D → Prop) : List (Hyp S D) → MS S D → Prop where
  | start (m : Nat) (bf : Bool) : Reach p [] (setBf (setMaxStackSize (new []) m) bf)
  | step {P : List (Hyp S D)} {ms ms' : MS S D} (o : Op S D) : Reach p P ms → Allowed p ms o → step ms o = some ms' →
      Reach p (hist P o) ms'

theorem step_cases {p : Hyp S D → Prop} {ms ms' : MS S D} {o : Op S D} (hc : Core ms) (hso : SortedOk ms)
    (ha : Allowed p ms o) (hs : step ms o = some ms') :
    (Core ms' ∧ SortedOk ms') ∧
    ((∃ h ok, o = .push h ∧ Outcome ms ms' h ok) ∨
     ((o = .pop ∨ o = .removeLast) ∧ ∃ k A e B il sl, elems ms k = A ++ e :: B ∧
        (∀ j, elems ms' j = if j = k then A ++ B else elems ms j) ∧ ms'.dict = ms.dict ∧
        lk ms.dict e.2.2.state = some (il, sl) ∧ ∀ i, lk ms'.recInfo i = if i = il then none else lk ms.recInfo i) ∨
     (((∃ b, o = .setBf b) ∨ ∃ m, o = .setMax m) ∧ (∀ k, elems ms' k = elems ms k) ∧ ms'.dict = ms.dict ∧
        ms'.recInfo = ms.recInfo) ∨
     (o = .clear ∧ (∀ k, elems ms' k = []) ∧ ms'.dict = ms.dict) ∨
     (o = .clearAll ∧ (∀ k, elems ms' k = []) ∧ ms'.dict = [])) := by
  cases o with
  | push x =>
    obtain ⟨ok, m', e1, e2, e3, e4, e5, e6⟩ := push_spec hc hso x
    simp only [step, e1, Option.map_some, Option.some.injEq] at hs
    subst hs; exact ⟨⟨e2, e3⟩, Or.inl ⟨x, ok, rfl, e6⟩⟩
  | pop =>
    cases hem : empty ms with
    | false =>
      obtain ⟨e, m', k, r, e1, e2, e3, _, _, e4, e5, _, _, e6, _, il, sl, e7, e8⟩ := pop_spec hc hso hem
      simp only [step, e1, Option.map_some, Option.some.injEq] at hs
      subst hs
      exact ⟨⟨e2, e3⟩, Or.inr (Or.inl ⟨Or.inl rfl, k, [], e, r, il, sl, e4, e5, e6, e7, e8⟩)⟩
    | true => simp [step, pop_empty hem] at hs
  | removeLast =>
    cases hem : empty ms with
    | false =>
      obtain ⟨k, t, l, e0, _, _, e1, e2⟩ := removeLast_spec hc hso hem
      by_cases ht : t = []
      · simp [step, e1 ht] at hs
      · obtain ⟨m', f1, f2, f3, _, _, f4, f5, _, il, sl, f6, f7⟩ := e2 ht
        simp only [step, f1, Option.some.injEq] at hs
        subst hs
        exact ⟨⟨f2, f3⟩, Or.inr (Or.inl ⟨Or.inr rfl, k, t, l, [], il, sl, e0, by simpa using f4, f5, f6, f7⟩)⟩
    | true => simp [step, removeLast_empty hem] at hs
  | setBf b =>
    simp only [step, Option.some.injEq] at hs
    subst hs
    exact ⟨core_setBf hc hso b, Or.inr (Or.inr (Or.inl ⟨Or.inl ⟨b, rfl⟩, fun _ => rfl, rfl, rfl⟩))⟩
  | setMax m =>
    simp only [step, Option.some.injEq] at hs
    subst hs
    exact ⟨core_setMax hc hso m ha, Or.inr (Or.inr (Or.inl ⟨Or.inr ⟨m, rfl⟩, elems_setMax ms m, rfl, rfl⟩))⟩
  | clear =>
    simp only [step, Option.some.injEq] at hs
    subst hs
    exact ⟨core_clear hc, Or.inr (Or.inr (Or.inr (Or.inl ⟨rfl, fun _ => rfl, rfl⟩)))⟩
  | clearAll =>
    simp only [step, Option.some.injEq] at hs
    subst hs
    exact ⟨core_clearAll, Or.inr (Or.inr (Or.inr (Or.inr ⟨rfl, fun _ => rfl, rfl⟩)))⟩

theorem reach_core {p : Hyp S D → Prop} {P : List (Hyp S D)} {ms : MS S D} (h : Reach p P ms) :
    Core ms ∧ SortedOk ms := by
  induction h with
  | start m bf => exact core_fresh m bf
  | step o _ ha hs ih => exact (step_cases ih.1 ih.2 ha hs).1

theorem reach_best {p : Hyp S D → Prop} {P : List (Hyp S D)} {ms : MS S D} (h : Reach p P ms) : Best P ms := by
  induction h with
  | start m bf =>
    refine ⟨fun st _ h hh => by simp at hh, ?_⟩
    intro st i sc hh
    exact absurd (show (none : Option (Nat × Int)) = some (i, sc) from hh) (by simp)
  | @step P ms ms' o hr ha hs ih =>
    obtain ⟨hc, hso⟩ := reach_core hr
    have same : ms'.dict = ms.dict → Best P ms' :=
      fun hd => ⟨by rw [hd]; exact ih.none, by rw [hd]; exact ih.some⟩
    rcases (step_cases hc hso ha hs).2 with ⟨h, ok, rfl, ho⟩ | ⟨ho, k, A, e, B, il, sl, _, _, hd, _⟩ | ⟨ho, _, hd, _⟩ |
      ⟨rfl, _, hd⟩ | ⟨rfl, _, hd⟩
    · exact best_push ih h ho
    · rcases ho with rfl | rfl <;> exact same hd
    · rcases ho with ⟨b, rfl⟩ | ⟨b, rfl⟩ <;> exact same hd
    · exact same hd
    · refine ⟨fun st _ h hh => by simp [hist] at hh, ?_⟩
      intro st i sc hh; rw [hd] at hh; cases hh

theorem reach_rec {f : S → Nat} {P : List (Hyp S D)} {ms : MS S D} (h : Reach (fun h => h.cls = f h.state) P ms) :
    Rec f P ms := by
  induction h with
  | start m bf =>
    exact ⟨fun h hh => by simp at hh, (fun k e he => by cases he), (fun k e he => by cases he)⟩
  | @step P ms ms' o hr ha hs ih =>
    obtain ⟨hc, hso⟩ := reach_core hr
    rcases (step_cases hc hso ha hs).2 with ⟨h, ok, rfl, ho⟩ | ⟨ho, k, A, e, B, il, sl, h1, h2, hd, h3, h4⟩ |
      ⟨ho, he, hd, hrec⟩ | ⟨rfl, he, hd⟩ | ⟨rfl, he, hd⟩
    · exact rec_push hc ih h ha ho
    · rcases ho with rfl | rfl <;> exact rec_remove hc ih h1 h2 hd h3 h4
    · have : Rec f P ms' := ⟨ih.pf, fun k e h => ih.inP k e (by rw [← he]; exact h), fun k e h => by
        rw [hd, hrec]; exact ih.tr k e (by rw [← he]; exact h)⟩
      rcases ho with ⟨b, rfl⟩ | ⟨b, rfl⟩ <;> exact this
    · exact ⟨ih.pf, (fun k e h => by rw [he] at h; cases h), (fun k e h => by rw [he] at h; cases h)⟩
    · exact ⟨fun h hh => by simp [hist] at hh, (fun k e h => by rw [he] at h; cases h), (fun k e h => by rw [he] at h; cases h)⟩

theorem reach_pushes {p : Hyp S D → Prop} {P : List (Hyp S D)} {ms ms' : MS S D} (h : Reach p P ms)
    (hs : List (Hyp S D)) (hp : ∀ x ∈ hs, p x) (hr : run ms (hs.map .push) = some ms') : Reach p (P ++ hs) ms' := by
  induction hs generalizing P ms with
  | nil => simp only [List.map_nil, run, Option.some.injEq] at hr; subst hr; simpa using h
  | cons x xs ih =>
    rw [List.map_cons, run] at hr
    cases hst : step ms (.push x) with
    | none => rw [hst] at hr; cases hr
    | some m1 =>
      rw [hst] at hr
      have := ih (Reach.step (.push x) h (hp x List.mem_cons_self) hst) (fun y hy => hp y (List.mem_cons_of_mem _ hy)) hr
      simpa [hist] using this

/-! ### C34: recombination -/

/-- The first half of C34 in full: a state is retained at most once, whatever the equivalence classes. -/
def C34_full : Prop := ∀ (P : List (Hyp Nat Unit)) (ms : MS Nat Unit), Reach (fun _ => True) P ms →
  ∀ k1 k2, ∀ e1 ∈ elems ms k1, ∀ e2 ∈ elems ms k2, e1.2.2.state = e2.2.2.state → k1 = k2 ∧ e1 = e2

/-- It fails when two hypotheses with the same state have different equivalence classes (as with the classes that
count jumps): the older one is kept in its own sub-stack. -/
theorem C34_counterexample : ¬ C34_full := by
  intro hf
  have h2 := reach_pushes (p := fun _ => True) (Reach.start 4 false) [⟨1, 0, 0, ()⟩, ⟨2, 0, 1, ()⟩]
    (fun _ _ => trivial) rfl
  have := (hf _ _ h2 0 1 (1, (0, ⟨1, 0, 0, ()⟩)) (by decide +kernel) (2, (1, ⟨2, 0, 1, ()⟩)) (by decide +kernel) rfl).1
  exact absurd this (by decide)

/-- C34 when the equivalence class is determined by the state: at most one retained hypothesis per state. -/
theorem C34_unique_partial {f : S → Nat} {P : List (Hyp S D)} {ms : MS S D}
    (h : Reach (fun h => h.cls = f h.state) P ms) (k1 k2 : Nat) (e1 e2 : Elem S D) (h1 : e1 ∈ elems ms k1)
    (h2 : e2 ∈ elems ms k2) (hs : e1.2.2.state = e2.2.2.state) : k1 = k2 ∧ e1 = e2 :=
  (reach_rec h).unique (reach_core h).1 h1 h2 hs

/-- ... and it has the best score among all hypotheses pushed with that state. -/
theorem C34_best_partial {f : S → Nat} {P : List (Hyp S D)} {ms : MS S D}
    (h : Reach (fun h => h.cls = f h.state) P ms) (k : Nat) (e : Elem S D) (he : e ∈ elems ms k) :
    e.2.2 ∈ P ∧ e.2.2.cls = k ∧ e.1 = e.2.2.score ∧ ∀ g ∈ P, g.state = e.2.2.state → g.score ≤ e.2.2.score := by
  obtain ⟨hc, hso⟩ := reach_core h
  obtain ⟨i, a, b⟩ := (reach_rec h).tr k e he
  have hs := (hc.el k e he).1
  refine ⟨(reach_rec h).inP k e he, (hc.el k e he).2.1, hs, ?_⟩
  intro g hg hgs
  rw [← hs]
  exact ((reach_best h).some _ _ _ a).2 g hg hgs

/-- Exact effect of a push when the equivalence class is determined by the state, with `old` the content of the
sub-stack without the hypothesis of the same state: rejected iff a strictly better hypothesis with the same state has
been pushed before or the sub-stack is full of hypotheses at least as good; a rejected push changes no sub-stack; an
accepted one replaces the hypothesis of the same state and keeps the best `max`. -/
theorem C34_push_partial {f : S → Nat} {P : List (Hyp S D)} {ms : MS S D}
    (hr : Reach (fun h => h.cls = f h.state) P ms) (h : Hyp S D) (hf : h.cls = f h.state) :
    ∃ ok ms', push ms h = some (ok, ms') ∧
      let old := (elems ms h.cls).filter (fun e => decide (e.2.2.state ≠ h.state))
      (ok = false ↔ (∃ g ∈ P, g.state = h.state ∧ h.score < g.score) ∨
        (ms.max ≤ old.length ∧ ∀ e ∈ old, h.score ≤ e.1)) ∧
      (ok = false → ∀ k, elems ms' k = elems ms k) ∧
      (ok = true → elems ms' h.cls = (ins h.score (ms.next, h) old).take ms.max ∧
        ∀ k, k ≠ h.cls → elems ms' k = elems ms k) := by
  obtain ⟨hc, hso⟩ := reach_core hr
  have hb := reach_best hr
  have haf := (reach_rec hr).afterRec hc h hf
  obtain ⟨ok, ms', e1, e2, e3, e4, e5, ho⟩ := push_spec hc hso h
  refine ⟨ok, ms', e1, ?_⟩
  simp only
  rw [← haf]
  have hnb : (∀ i sc, lk ms.dict h.state = some (i, sc) → sc ≤ h.score) →
      ¬ ∃ g ∈ P, g.state = h.state ∧ h.score < g.score := by
    rintro hle ⟨g, hg, hgs, hlt⟩
    cases hd : lk ms.dict h.state with
    | none => exact hb.none _ hd g hg hgs
    | some q =>
      obtain ⟨i, sc⟩ := q
      have h1 := hle _ _ hd
      have h2 := (hb.some _ _ _ hd).2 g hg hgs
      omega
  cases ho with
  | worse i sc a b c d e =>
    obtain ⟨⟨y, y1, y2, y3⟩, _⟩ := hb.some _ _ _ a
    exact ⟨⟨fun _ => Or.inl ⟨y, y1, y2, by omega⟩, fun _ => rfl⟩, fun _ => c, fun hh => Bool.noConfusion hh⟩
  | full a b c d g e =>
    refine ⟨⟨fun _ => Or.inr ?_, fun _ => rfl⟩, fun _ => b, fun hh => Bool.noConfusion hh⟩
    rw [g]
    rcases e with e | ⟨e, e'⟩
    · have := hc.len h.cls
      rw [e] at this
      have hnil := List.eq_nil_of_length_eq_zero (Nat.le_zero.1 this)
      rw [hnil, e]; simp
    · exact ⟨by omega, e'⟩
  | room a b c d e g =>
    refine ⟨⟨fun hh => Bool.noConfusion hh, ?_⟩, fun hh => Bool.noConfusion hh, fun _ => ⟨?_, b⟩⟩
    · rintro (hh | ⟨hh, _⟩)
      · exact absurd hh (hnb a)
      · omega
    · rw [d, List.take_of_length_le (by rw [length_ins]; omega)]
  | prune t l il sl a b c d e g i j k m =>
    refine ⟨⟨fun hh => Bool.noConfusion hh, ?_⟩, fun hh => Bool.noConfusion hh, fun _ => ⟨?_, b⟩⟩
    · rintro (hh | ⟨_, hh⟩)
      · exact absurd hh (hnb a)
      · have := hh l (by rw [c, d]; simp)
        omega
    · have hlen : t.length + 1 = ms.max := by rw [← e, d]; simp
      rw [j, c, d, ← hlen, take_ins_full _ _ _ _ g]

/-- The second half of C34, with arbitrary equivalence classes: a push is rejected only if a strictly better
hypothesis with its state has been pushed, or its sub-stack is full of hypotheses at least as good; in both cases the
retained hypotheses are unchanged. -/
theorem C34_discard {P : List (Hyp S D)} {ms ms' : MS S D} (hr : Reach (fun _ => True) P ms) (h : Hyp S D)
    (hp : push ms h = some (false, ms')) :
    ((∃ g ∈ P, g.state = h.state ∧ h.score < g.score) ∨
      (ms.max ≤ (elems ms h.cls).length ∧ ∀ e ∈ elems ms h.cls, h.score ≤ e.1)) ∧
    ∀ k, elems ms' k = elems ms k := by
  obtain ⟨hc, hso⟩ := reach_core hr
  obtain ⟨ok, m', e1, e2, e3, e4, e5, ho⟩ := push_spec hc hso h
  rw [e1] at hp
  injection hp with hp; injection hp with hp1 hp2
  subst hp1 hp2
  cases ho with
  | worse i sc a b c d e =>
    obtain ⟨⟨y, y1, y2, y3⟩, _⟩ := (reach_best hr).some _ _ _ a
    exact ⟨Or.inl ⟨y, y1, y2, by omega⟩, c⟩
  | full a b c d g e =>
    refine ⟨Or.inr ?_, b⟩
    rcases e with e | ⟨e, e'⟩
    · have := hc.len h.cls
      rw [e] at this
      have hnil := List.eq_nil_of_length_eq_zero (Nat.le_zero.1 this)
      rw [hnil, e]; simp
    · exact ⟨by omega, e'⟩

/-- Every sub-stack is bounded and sorted, in every reachable state. -/
theorem C34_bounded {p : Hyp S D → Prop} {P : List (Hyp S D)} {ms : MS S D} (hr : Reach p P ms) (k : Nat) :
    (elems ms k).length ≤ ms.max ∧ (elems ms k).Pairwise (fun a b => b.1 ≤ a.1) ∧
      ∀ e ∈ elems ms k, e.1 = e.2.2.score ∧ e.2.2.cls = k :=
  ⟨(reach_core hr).1.len k, (reach_core hr).1.desc k,
    fun e he => ⟨((reach_core hr).1.el k e he).1, ((reach_core hr).1.el k e he).2.1⟩⟩

/-! ### C35: pop -/

/-- Best-first: `pop` returns, and removes, a hypothesis of maximal score among all sub-stacks. -/
theorem C35_best_first {p : Hyp S D → Prop} {P : List (Hyp S D)} {ms : MS S D} (hr : Reach p P ms)
    (hbf : ms.bf = false) (hne : ∃ k, elems ms k ≠ []) :
    ∃ e ms' k r, pop ms = some (e, ms') ∧ elems ms k = e :: r ∧ (∀ j, ∀ x ∈ elems ms j, x.2.2.score ≤ e.2.2.score) ∧
      elems ms' k = r ∧ ∀ j, j ≠ k → elems ms' j = elems ms j := by
  obtain ⟨hc, hso⟩ := reach_core hr
  have hem : empty ms = false := by
    cases h : empty ms with
    | false => rfl
    | true => obtain ⟨k, hk⟩ := hne; exact absurd ((empty_iff hso).1 h k) hk
  obtain ⟨e, ms', k, r, e1, e2, e3, _, _, e4, e5, _, e7, _⟩ := pop_spec hc hso hem
  refine ⟨e, ms', k, r, e1, e4, ?_, by rw [e5, if_pos rfl], fun j hj => by rw [e5, if_neg hj]⟩
  intro j x hx
  rw [← (hc.el j x hx).1, ← (hc.el k e (by rw [e4]; exact List.mem_cons_self)).1]
  exact e7 hbf j x hx

/-- Breadth-first: `pop` returns, and removes, the best hypothesis of the first non-empty sub-stack in key order. -/
theorem C35_breadth_first {p : Hyp S D → Prop} {P : List (Hyp S D)} {ms : MS S D} (hr : Reach p P ms)
    (hbf : ms.bf = true) (hne : ∃ k, elems ms k ≠ []) :
    ∃ e ms' k r, pop ms = some (e, ms') ∧ elems ms k = e :: r ∧ (∀ j, elems ms j ≠ [] → k ≤ j) ∧
      (∀ x ∈ elems ms k, x.2.2.score ≤ e.2.2.score) ∧
      elems ms' k = r ∧ ∀ j, j ≠ k → elems ms' j = elems ms j := by
  obtain ⟨hc, hso⟩ := reach_core hr
  have hem : empty ms = false := by
    cases h : empty ms with
    | false => rfl
    | true => obtain ⟨k, hk⟩ := hne; exact absurd ((empty_iff hso).1 h k) hk
  obtain ⟨e, ms', k, r, e1, e2, e3, _, _, e4, e5, e6, _⟩ := pop_spec hc hso hem
  refine ⟨e, ms', k, r, e1, e4, e6 hbf, ?_, by rw [e5, if_pos rfl], fun j hj => by rw [e5, if_neg hj]⟩
  intro x hx
  rw [← (hc.el k x hx).1, ← (hc.el k e (by rw [e4]; exact List.mem_cons_self)).1]
  exact head_mem_le (hc.desc k) (by rw [e4]; rfl) x hx

/-! ### C36: removeLast -/

/-- C36 in full: in best-first mode `removeLast` removes a hypothesis of minimal score. -/
def C36_full : Prop := ∀ (P : List (Hyp Nat Unit)) (ms ms' : MS Nat Unit), Reach (fun _ => True) P ms →
  ms.bf = false → removeLast ms = some ms' →
  ∃ k t l, elems ms k = t ++ [l] ∧ elems ms' k = t ∧ ∀ j, ∀ x ∈ elems ms j, l.1 ≤ x.1

/-- It removes from the first sub-stack even if the worst hypothesis is elsewhere. -/
theorem C36_counterexample : ¬ C36_full := by
  intro hf
  have h3 := reach_pushes (p := fun _ => True) (Reach.start 4 false)
    [⟨5, 0, 0, ()⟩, ⟨4, 1, 0, ()⟩, ⟨1, 2, 1, ()⟩] (fun _ _ => trivial) rfl
  obtain ⟨k, t, l, e1, e2, e3⟩ := hf _ _ _ h3 rfl rfl
  have hl := e3 1 (1, (2, ⟨1, 2, 1, ()⟩)) (by decide +kernel)
  have hm := ((reach_core h3).2.mem k).2 (by rw [e1]; simp)
  have hk : k = 0 ∨ k = 1 := by
    have h4 : k ∈ ([0, 1] : List Nat) := hm
    simpa using h4
  rcases hk with rfl | rfl
  · have h5 : [((5, (0, ⟨5, 0, 0, ()⟩)) : Elem Nat Unit), (4, (1, ⟨4, 1, 0, ()⟩))] = t ++ [l] := e1
    have h6 : ∀ x ∈ [((5, (0, ⟨5, 0, 0, ()⟩)) : Elem Nat Unit), (4, (1, ⟨4, 1, 0, ()⟩))], 4 ≤ x.1 := by decide
    have := h6 l (by rw [h5]; simp)
    simp only at hl
    omega
  · have h5 : [((1, (2, ⟨1, 2, 1, ()⟩)) : Elem Nat Unit)] = t ++ [l] := e1
    have h6 : [((1, (2, ⟨1, 2, 1, ()⟩)) : Elem Nat Unit)] = t := e2
    rw [h6] at h5
    have := congrArg List.length h5
    simp at this

/-- What `removeLast` does: in breadth-first mode it removes the worst hypothesis of the last non-empty sub-stack in key
order, in best-first mode that of the first one (not the worst of all), and it is undefined when that sub-stack has a
single hypothesis. -/
theorem C36_partial {p : Hyp S D → Prop} {P : List (Hyp S D)} {ms : MS S D} (hr : Reach p P ms)
    (hne : ∃ k, elems ms k ≠ []) :
    ∃ k t l, elems ms k = t ++ [l] ∧ (∀ x ∈ elems ms k, l.2.2.score ≤ x.2.2.score) ∧
      (ms.bf = true → ∀ j, elems ms j ≠ [] → j ≤ k) ∧ (ms.bf = false → ∀ j, elems ms j ≠ [] → k ≤ j) ∧
      (t = [] → removeLast ms = none) ∧
      (t ≠ [] → ∃ ms', removeLast ms = some ms' ∧ elems ms' k = t ∧ ∀ j, j ≠ k → elems ms' j = elems ms j) := by
  obtain ⟨hc, hso⟩ := reach_core hr
  have hem : empty ms = false := by
    cases h : empty ms with
    | false => rfl
    | true => obtain ⟨k, hk⟩ := hne; exact absurd ((empty_iff hso).1 h k) hk
  obtain ⟨k, t, l, e1, e2, e3, e4, e5⟩ := removeLast_spec hc hso hem
  refine ⟨k, t, l, e1, ?_, e2, e3, e4, ?_⟩
  · intro x hx
    rw [← (hc.el k x hx).1, ← (hc.el k l (by rw [e1]; simp)).1]
    exact Stack.desc_last_le (hc.desc k) (l := l) (by rw [e1]; simp) x hx
  · intro ht
    obtain ⟨ms', f1, _, _, _, _, f2, _⟩ := e5 ht
    exact ⟨ms', f1, by rw [f2, if_pos rfl], fun j hj => by rw [f2, if_neg hj]⟩

/-! ### C44: memory safety -/

/-- C44 in full: whatever operations were performed (including any change of the maximum size), `push` never uses an
invalid iterator. -/
def C44_full : Prop := ∀ (m : Nat) (bf : Bool) (os : List (Op Nat Unit)) (ms : MS Nat Unit) (h : Hyp Nat Unit),
  run (setBf (setMaxStackSize (new []) m) bf) os = some ms → push ms h ≠ none

/-- Shrinking the maximum size of a non-empty multi-stack leaves stale entries in the recombination table. -/
theorem C44_counterexample : ¬ C44_full := by
  intro hf
  exact hf 2 true [.push ⟨5, 0, 0, ()⟩, .push ⟨3, 1, 0, ()⟩, .setMax 1, .push ⟨9, 2, 0, ()⟩] _ ⟨4, 1, 0, ()⟩ rfl
    (by decide +kernel)

/-- Without such a change, every push is defined, `pop` is defined exactly when something is stored, and `empty()`,
`size()` tell the truth. -/
theorem C44_safe_partial {p : Hyp S D → Prop} {P : List (Hyp S D)} {ms : MS S D} (hr : Reach p P ms) :
    (∀ h, push ms h ≠ none) ∧ (pop ms = none ↔ ∀ k, elems ms k = []) ∧
    (empty ms = true ↔ ∀ k, elems ms k = []) ∧
    ∃ ks : List Nat, ks.Pairwise (· < ·) ∧ (∀ k, k ∈ ks ↔ elems ms k ≠ []) ∧ size ms = ks.length := by
  obtain ⟨hc, hso⟩ := reach_core hr
  refine ⟨?_, ?_, empty_iff hso, ms.sorted, hso.srt, hso.mem, rfl⟩
  · intro h hn
    obtain ⟨ok, ms', e1, _⟩ := push_spec hc hso h
    rw [e1] at hn; cases hn
  · rw [← empty_iff hso]
    constructor
    · intro hp
      cases hem : empty ms with
      | true => rfl
      | false => obtain ⟨e, ms', k, r, e1, _⟩ := pop_spec hc hso hem; rw [e1] at hp; cases hp
    · exact pop_empty

/-! ### C45: top -/

/-- C45 in full: `top()` is the hypothesis `pop()` would return (`dflt`: score of a default hypothesis). -/
def C45_full : Prop := ∀ (dflt : Int) (P : List (Hyp Nat Unit)) (ms : MS Nat Unit), Reach (fun _ => True) P ms →
  top dflt ms = (pop ms).map (·.1)

/-- In best-first mode with negative scores (log-probabilities) and a default score of 0, `top` returns the top of the
first sub-stack. -/
theorem C45_counterexample : ¬ C45_full := by
  intro hf
  have h2 := reach_pushes (p := fun _ => True) (Reach.start 4 false) [⟨-5, 0, 0, ()⟩, ⟨-1, 1, 1, ()⟩]
    (fun _ _ => trivial) rfl
  exact absurd (hf 0 _ _ h2) (by decide +kernel)

/-- `top` agrees with `pop` in breadth-first mode, and in best-first mode when every stored score exceeds the score of
a default hypothesis. -/
theorem C45_partial {p : Hyp S D → Prop} {P : List (Hyp S D)} {ms : MS S D} (hr : Reach p P ms) (dflt : Int)
    (h : ms.bf = true ∨ ∀ k, ∀ e ∈ elems ms k, dflt < e.2.2.score) : top dflt ms = (pop ms).map (·.1) := by
  obtain ⟨hc, hso⟩ := reach_core hr
  cases hem : empty ms with
  | true =>
    rw [pop_empty hem]
    have : ms.sorted = [] := List.eq_nil_of_length_eq_zero (by simpa [empty] using hem)
    simp [top, this]
  | false =>
    cases hsrt : ms.sorted with
    | nil => simp [empty, hsrt] at hem
    | cons k0 ks =>
      have hne0 : elems ms k0 ≠ [] := (hso.mem k0).1 (by rw [hsrt]; exact List.mem_cons_self)
      obtain ⟨t0, r0, ht0, htop0⟩ := top_of_ne hne0
      have h0 : ∀ d : Int, d < t0.1 → ms.bf = false →
          bestLoop (topOf ms) ms.sorted (k0, t0, d) = bestLoop (topOf ms) ms.sorted (k0, t0, t0.1) := by
        intro d hd _
        rw [hsrt, bestLoop, bestLoop, htop0]
        simp only [gt_iff_lt, if_pos hd, Int.lt_irrefl, if_false]
      have hpop : ∀ r, (if ms.bf then some (k0, t0, t0.1) else bestLoop (topOf ms) ms.sorted (k0, t0, t0.1)) = some r →
          (pop ms).map (·.1) = some r.2.1 := by
        intro r hsel
        obtain ⟨e, ms', k, r', e1, _⟩ := pop_spec hc hso hem
        rw [e1]
        unfold pop at e1
        split at e1
        · rename_i hh; rw [hsrt] at hh; cases hh
        · rename_i k0' ks' hh
          rw [hsrt] at hh; injection hh with hh _; subst hh
          rw [htop0] at e1
          simp only [hsel] at e1
          split at e1
          · cases e1
          · split at e1
            · cases e1
            · split at e1
              · cases e1
              · split at e1
                · cases e1
                · injection e1 with e1; injection e1 with e1 _; rw [← e1]; rfl
      unfold top
      split
      · rename_i hh; rw [hsrt] at hh; cases hh
      · rename_i k0' ks' hh
        rw [hsrt] at hh; injection hh with hh _; subst hh
        rw [htop0]
        simp only
        cases hbf : ms.bf with
        | true => simp only [if_true]; exact (hpop (k0, t0, t0.1) (by simp [hbf])).symm
        | false =>
          have hlt : dflt < t0.1 := by
            rcases h with h | h
            · rw [hbf] at h; cases h
            · have hm : t0 ∈ elems ms k0 := by rw [ht0]; exact List.mem_cons_self
              rw [(hc.el k0 t0 hm).1]; exact h k0 t0 hm
          simp only [Bool.false_eq_true, if_false]
          rw [h0 dflt hlt hbf]
          obtain ⟨r, r1, _⟩ := bestLoop_spec (topOf ms) ms.sorted (by
            intro j hj
            obtain ⟨e, _, _, h⟩ := top_of_ne ((hso.mem j).1 hj)
            exact ⟨e, h⟩) (k0, t0, t0.1)
          rw [r1]
          exact (hpop r (by simp [hbf]; exact r1)).symm

/-! ### Non-vacuity: a concrete reachable state with recombination, in best-first mode -/

/-- Two states, three hypotheses (one recombined), classes determined by the state. -/
example : ∃ P, ∃ ms : MS Nat Unit, Reach (fun h => h.cls = id h.state) P ms ∧ P.length = 3 ∧
    (elems ms 0).map (·.1) = [2] ∧ (elems ms 1).map (·.1) = [7] ∧ ms.bf = false := by
  have h3 := reach_pushes (p := fun h => h.cls = id h.state) (Reach.start (D := Unit) 4 false)
    [⟨1, 0, 0, ()⟩, ⟨2, 0, 0, ()⟩, ⟨7, 1, 1, ()⟩] (by decide) rfl
  exact ⟨_, _, h3, rfl, by decide +kernel, by decide +kernel, rfl⟩

end Thot.MultiStack
