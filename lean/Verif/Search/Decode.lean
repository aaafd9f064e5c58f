import Verif.Search.DecModel
import Verif.Search.RefProps
import Verif.MultiStack.Props

/-!
Property C85: what the decoder returns.
-/
namespace Thot.Search
open Thot.StrProc (Str)
open Thot.MultiStack (elems Core SortedOk Outcome push_spec pop_spec empty_iff)

variable {S : Type} [DecidableEq S]

/-! ### The container -/

/-- The hypotheses stored are those that were stored, and possibly the one pushed. -/
theorem outcome_mem {ms ms' : MultiStack.MS S HypData} {x : MultiStack.Hyp S HypData} {ok : Bool}
    (ho : Outcome ms ms' x ok) {k : Nat} {e : MultiStack.Elem S HypData} (he : e ∈ elems ms' k) :
    e ∈ elems ms k ∨ (e = (x.score, (ms.next, x)) ∧ k = x.cls) := by
  have hsub := (MultiStack.afterRec_sub ms x.cls (MultiStack.idxOf ms x.state)).subset
  cases ho with
  | worse i sc _ _ h1 _ _ => rw [h1] at he; exact Or.inl he
  | full _ h1 _ _ _ _ => rw [h1] at he; exact Or.inl he
  | room _ h1 _ h2 _ _ =>
    by_cases hk : k = x.cls
    · subst hk
      rw [h2, MMap.mem_ins] at he
      rcases he with he | he
      · exact Or.inr ⟨he, rfl⟩
      · exact Or.inl (hsub he)
    · rw [h1 k hk] at he; exact Or.inl he
  | prune t l il sl _ h1 _ h2 _ _ _ h3 _ _ =>
    by_cases hk : k = x.cls
    · subst hk
      rw [h3, MMap.mem_ins] at he
      rcases he with he | he
      · exact Or.inr ⟨he, rfl⟩
      · exact Or.inl (by rw [h2]; exact List.mem_append_left _ he)
    · rw [h1 k hk] at he; exact Or.inl he

/-- `popStored` on a non-empty container. -/
theorem popStored_spec {ms : MultiStack.MS S HypData} (hc : Core ms) (hso : SortedOk ms) (D : Dec S) (n : Nat)
    (hne : MultiStack.empty ms = false) :
    ∃ e ms' k A r, popStored D n ms = some (e, ms') ∧ Core ms' ∧ SortedOk ms' ∧ ms'.max = ms.max ∧ ms'.dict = ms.dict ∧
      elems ms k = e :: r ∧ A = r ∧ (∀ j, elems ms' j = if j = k then r else elems ms j) ∧
      (ms'.bf = if D.breadthFirst then true else ms.bf) ∧
      (D.breadthFirst = false → ms.bf = false → ∀ j, ∀ y ∈ elems ms j, y.1 ≤ e.1) ∧
      (D.breadthFirst = true → isComplete n e.2.2.data = true → ∀ j, ∀ y ∈ elems ms j, y.1 ≤ e.1) := by
  unfold popStored
  cases hb : D.breadthFirst with
  | false =>
    obtain ⟨e, ms', k, r, e1, e2, e3, e4, e5, e6, e7, _, e8, e9, _⟩ := pop_spec hc hso hne
    refine ⟨e, ms', k, r, r, ?_, e2, e3, e4, e9, e6, rfl, e7, ?_, fun _ h => e8 h, fun h => by cases h⟩
    · simpa using e1
    · simpa using e5
  | true =>
    simp only [if_true]
    obtain ⟨c1, s1⟩ := MultiStack.core_setBf hc hso true
    obtain ⟨c2, s2⟩ := MultiStack.core_setBf hc hso false
    obtain ⟨e, ms', k, r, e1, e2, e3, e4, e5, e6, e7, _, _, e9, _⟩ := pop_spec c1 s1 hne
    obtain ⟨e', ms'', k', r', f1, f2, f3, f4, f5, f6, f7, _, f8, f9, _⟩ := pop_spec c2 s2 hne
    have htop : ∃ t, MultiStack.top 0 (MultiStack.setBf ms true) = some t ∧ t = e := by
      unfold MultiStack.top
      unfold MultiStack.pop at e1
      cases hs : (MultiStack.setBf ms true).sorted with
      | nil => rw [hs] at e1; cases e1
      | cons k0 ks =>
        rw [hs] at e1
        dsimp only at e1 ⊢
        cases ht : MultiStack.topOf (MultiStack.setBf ms true) k0 with
        | none => rw [ht] at e1; cases e1
        | some t0 =>
          rw [ht] at e1
          have hbf : (MultiStack.setBf ms true).bf = true := rfl
          simp only [hbf, if_true, ht] at e1 ⊢
          refine ⟨t0, rfl, ?_⟩
          split at e1
          · cases e1
          · split at e1
            · cases e1
            · split at e1
              · cases e1
              · injection e1 with e1; injection e1
    obtain ⟨t, ht, hte⟩ := htop
    rw [ht]
    dsimp only
    subst hte
    by_cases hcomp : isComplete n t.2.2.data = true
    · rw [if_pos hcomp, f1]
      obtain ⟨c3, s3⟩ := MultiStack.core_setBf f2 f3 true
      exact ⟨e', MultiStack.setBf ms'' true, k', r', r', rfl, c3, s3, f4, f9, f6, rfl, f7, by simp [MultiStack.setBf],
        fun h => (by cases h), fun _ _ => f8 rfl⟩
    · rw [if_neg hcomp, e1]
      refine ⟨t, ms', k, r, r, rfl, e2, e3, e4, e9, e6, rfl, e7, by rw [e5]; rfl, fun h => (by cases h), fun _ h => absurd h hcomp⟩

/-! ### What is stored is reachable -/

structure SInv (m : Mode) (D : Dec S) (M : Model) (I : Input) (s : DState S) : Prop where
  core : Core s.ms
  sorted : SortedOk s.ms
  el : ∀ k, ∀ e ∈ elems s.ms k, ∃ h, Reach m M I h ∧ e.2.2 = stored D M I.src.length h

theorem back_stored (D : Dec S) (M : Model) (n : Nat) (h : Hyp) : back D M n (stored D M n h) = h := by
  unfold back stored
  cases h with
  | mk sc d =>
    simp only [Hyp.mk.injEq, and_true]
    omega

theorem decPush_spec {m : Mode} {D : Dec S} {M : Model} {I : Input} {s : DState S} (hs : SInv m D M I s) {h : Hyp}
    (hr : Reach m M I h) : ∃ ok s', decPush D M I.src.length s h = some (ok, s') ∧ SInv m D M I s' := by
  unfold decPush
  split
  · dsimp only
    split
    · exact ⟨_, _, rfl, hs⟩
    · obtain ⟨ok, ms', e1, e2, e3, _, _, ho⟩ := push_spec hs.core hs.sorted (stored D M I.src.length h)
      rw [e1]
      refine ⟨_, _, rfl, e2, e3, fun k e he => ?_⟩
      rcases outcome_mem ho he with he | ⟨he, _⟩
      · exact hs.el k e he
      · exact ⟨h, hr, by rw [he]⟩
  · exact ⟨_, _, rfl, hs⟩

theorem pushAll_spec {m : Mode} {D : Dec S} {M : Model} {I : Input} : ∀ (hs : List Hyp) {s : DState S}, SInv m D M I s →
    (∀ h ∈ hs, Reach m M I h) → ∃ s', pushAll D M I.src.length hs s = some s' ∧ SInv m D M I s'
  | [], s, h, _ => ⟨s, rfl, h⟩
  | x :: xs, s, h, hr => by
    obtain ⟨ok, s1, e1, e2⟩ := decPush_spec h (hr x (by simp))
    rw [pushAll, e1]
    exact pushAll_spec xs e2 fun y hy => hr y (by simp [hy])

theorem decPop_spec {m : Mode} {D : Dec S} {M : Model} {I : Input} {s : DState S} (hs : SInv m D M I s)
    (hne : MultiStack.empty s.ms = false) :
    ∃ h s', decPop D M I.src.length s = some (h, s') ∧ SInv m D M I s' ∧ Reach m M I h := by
  obtain ⟨e, ms', k, A, r, e1, e2, e3, e4, _, e5, _, e6, _⟩ := popStored_spec hs.core hs.sorted D I.src.length hne
  obtain ⟨h, h1, h2⟩ := hs.el k e (by rw [e5]; simp)
  refine ⟨_, _, by rw [decPop, e1]; rfl, ⟨e2, e3, fun j y hy => ?_⟩, by rw [h2, back_stored]; exact h1⟩
  dsimp only at hy
  rw [e6] at hy
  by_cases hj : j = k
  · rw [if_pos hj] at hy
    exact hs.el k y (by rw [e5]; simp [hy])
  · rw [if_neg hj] at hy; exact hs.el j y hy

theorem popUpTo_spec {m : Mode} {D : Dec S} {M : Model} {I : Input} : ∀ (k : Nat) {s : DState S}, SInv m D M I s →
    ∃ hs s', popUpTo D M I.src.length k s = some (hs, s') ∧ SInv m D M I s' ∧ (∀ h ∈ hs, Reach m M I h) ∧
      (hs = [] → k = 0 ∨ MultiStack.empty s'.ms = true)
  | 0, s, h => ⟨[], s, rfl, h, by simp, fun _ => Or.inl rfl⟩
  | k + 1, s, h => by
    unfold popUpTo
    cases he : MultiStack.empty s.ms with
    | true => exact ⟨[], s, by simp, h, by simp, fun _ => Or.inr he⟩
    | false =>
      obtain ⟨x, s1, e1, e2, e3⟩ := decPop_spec h he
      obtain ⟨xs, s2, f1, f2, f3, _⟩ := popUpTo_spec k e2
      rw [if_neg (by simp), e1]
      dsimp only
      rw [f1]
      refine ⟨x :: xs, s2, rfl, f2, ?_, by simp⟩
      intro y hy
      rcases List.mem_cons.1 hy with rfl | hy
      · exact e3
      · exact f3 y hy

/-! ### The loop -/

/-- Expansion is defined on every hypothesis that can be built (C82, C84). -/
def Safe (m : Mode) (M : Model) (I : Input) : Prop := ∀ h, Reach m M I h → ∃ hs, expandMode m M I h = some hs

structure LInv (m : Mode) (D : Dec S) (M : Model) (I : Input) (L : Loop S) : Prop where
  s : SInv m D M I L.s
  res : Reach m M I L.result
  fin : L.ended = true → isComplete I.src.length L.result.data = true
  other : m ≠ .trans → isComplete I.src.length L.result.data = false → L.result = nullHyp M

theorem distToNull_eq {n : Nat} {d : HypData} (hw : WfHyp n d) :
    distToNull n d = (d.srcSegm.map fun s => s.2 + 1 - s.1).sum := by
  have := C81_no_underflow hw
  simp only [distToNull, uncovered, nullData, List.map_nil, List.sum_nil]
  omega

theorem distToNull_complete {n : Nat} {d d' : HypData} (hw : WfHyp n d) (hw' : WfHyp n d') (h : isComplete n d = true)
    (h' : isComplete n d' = false) : distToNull n d' < distToNull n d := by
  have h1 := C81_no_underflow hw
  have h2 := C81_no_underflow hw'
  rw [distToNull_eq hw, distToNull_eq hw']
  simp only [isComplete, uncovered, beq_iff_eq, beq_eq_false_iff_ne] at h h'
  omega

theorem updateResult_cases (m : Mode) (n : Nat) (r h : Hyp) :
    updateResult m n r h = r ∨ (updateResult m n r h = h ∧ m = .trans ∧ distToNull n r.data ≤ distToNull n h.data) := by
  unfold updateResult
  split
  · split
    · exact Or.inr ⟨rfl, by assumption, by omega⟩
    · split
      · exact Or.inr ⟨rfl, by assumption, by omega⟩
      · exact Or.inl rfl
  · exact Or.inl rfl

theorem handle_spec {m : Mode} {D : Dec S} {M : Model} {I : Input} (hsafe : Safe m M I) {L : Loop S} (hL : LInv m D M I L)
    {h : Hyp} (hr : Reach m M I h) : ∃ L', handle m D M I L h = some L' ∧ LInv m D M I L' := by
  unfold handle
  cases hc : isComplete I.src.length h.data with
  | true =>
    rw [if_pos rfl]
    cases he : L.ended with
    | false =>
      rw [if_pos rfl]
      exact ⟨_, rfl, hL.s, hr, fun _ => hc, fun _ h' => by rw [hc] at h'; cases h'⟩
    | true =>
      rw [if_neg (by simp)]
      obtain ⟨ok, s', e1, e2⟩ := decPush_spec hL.s hr
      rw [e1]
      exact ⟨_, rfl, e2, hL.res, fun _ => hL.fin he, hL.other⟩
  | false =>
    rw [if_neg (by simp)]
    obtain ⟨hs, e⟩ := hsafe h hr
    rw [e]
    obtain ⟨s', e1, e2⟩ := pushAll_spec hs.reverse hL.s fun x hx => .step hr e (by simpa using hx)
    dsimp only
    rw [e1]
    rcases updateResult_cases m I.src.length L.result h with hu | ⟨hu, hm, hd⟩
    · exact ⟨_, rfl, e2, by rw [hu]; exact hL.res, by rw [hu]; exact hL.fin, by rw [hu]; exact hL.other⟩
    · refine ⟨_, rfl, e2, by rw [hu]; exact hr, fun he => ?_, fun h' => absurd hm h'⟩
      have := distToNull_complete (C81_wf hL.res) (C81_wf hr) (hL.fin he) hc
      omega

theorem handleAll_spec {m : Mode} {D : Dec S} {M : Model} {I : Input} (hsafe : Safe m M I) : ∀ (hs : List Hyp) {L : Loop S},
    LInv m D M I L → (∀ h ∈ hs, Reach m M I h) → ∃ L', handleAll m D M I hs L = some L' ∧ LInv m D M I L'
  | [], L, h, _ => ⟨L, rfl, h⟩
  | x :: xs, L, h, hr => by
    obtain ⟨L1, e1, e2⟩ := handle_spec hsafe h (hr x (by simp))
    rw [handleAll, e1]
    exact handleAll_spec hsafe xs e2 fun y hy => hr y (by simp [hy])

/-- What is known when the loop ends. -/
structure Final (m : Mode) (D : Dec S) (M : Model) (I : Input) (L : Loop S) : Prop where
  s : SInv m D M I L.s
  res : Reach m M I L.result
  how : isComplete I.src.length L.result.data = true ∨ L.ended = false ∨ D.I = 0 ∨ MultiStack.empty L.s.ms = true
  other : m ≠ .trans → isComplete I.src.length L.result.data = false → L.result = nullHyp M

theorem decLoop_spec {m : Mode} {D : Dec S} {M : Model} {I : Input} (hsafe : Safe m M I) : ∀ (k : Nat) {L : Loop S},
    LInv m D M I L → ∃ L', decLoop m D M I k L = some L' ∧ Final m D M I L'
  | 0, L, h => by
    refine ⟨L, rfl, h.s, h.res, ?_, h.other⟩
    cases he : L.ended with
    | true => exact Or.inl (h.fin he)
    | false => exact Or.inr (Or.inl rfl)
  | k + 1, L, h => by
    unfold decLoop
    cases he : L.ended with
    | true => exact ⟨L, by simp, h.s, h.res, Or.inl (h.fin he), h.other⟩
    | false =>
      rw [if_neg (by simp)]
      obtain ⟨hs, s', e1, e2, e3, e4⟩ := popUpTo_spec D.I h.s
      rw [e1]
      cases hs with
      | nil => exact ⟨_, rfl, e2, h.res, Or.inr (Or.inr (e4 rfl)), h.other⟩
      | cons x xs =>
        dsimp only
        obtain ⟨L1, f1, f2⟩ := handleAll_spec hsafe (x :: xs) (L := ⟨false, L.result, s'⟩)
          ⟨e2, h.res, fun h => (by cases h), h.other⟩ e3
        rw [f1]
        exact decLoop_spec hsafe k f2

theorem sinv_clear (m : Mode) (D : Dec S) (M : Model) (I : Input) (ms : MultiStack.MS S HypData) (b : Int) :
    SInv m D M I ⟨MultiStack.clearAll ms, b⟩ :=
  ⟨MultiStack.core_clearAll.1, MultiStack.core_clearAll.2, fun k e he => by cases he⟩

theorem translate_spec {m : Mode} {D : Dec S} {M : Model} {I : Input} (hsafe : lengthsOk m I = true → Safe m M I)
    (ms : MultiStack.MS S HypData) : ∃ L, translate m D M I ms = some L ∧ Final m D M I L ∧
      (lengthsOk m I = false → L.result = nullHyp M) := by
  unfold translate
  cases hl : lengthsOk m I with
  | false =>
    exact ⟨_, rfl, ⟨sinv_clear m D M I ms _, .null, Or.inr (Or.inr (Or.inr rfl)), fun _ _ => rfl⟩, fun _ => rfl⟩
  | true =>
    rw [if_pos rfl]
    obtain ⟨ok, s1, e1, e2⟩ := decPush_spec (sinv_clear m D M I ms D.worst) (h := nullHyp M) .null
    rw [e1]
    obtain ⟨L, f1, f2⟩ := decLoop_spec (hsafe hl) (D.maxIter - 1) (L := ⟨false, nullHyp M, s1⟩)
      ⟨e2, .null, fun h => (by cases h), fun _ _ => rfl⟩
    exact ⟨L, f1, f2, fun h => by cases h⟩

theorem safe_of {m : Mode} {M : Model} {I : Input} (hI : m = .trans → FromRaw I) (hl : lengthsOk m I = true) :
    Safe m M I := by
  intro h hr
  simp only [lengthsOk, Bool.and_eq_true, decide_eq_true_eq] at hl
  obtain ⟨⟨_, h1⟩, h2⟩ := hl
  cases m with
  | trans => exact C82_expand_safe (hI rfl) hr
  | ref => exact C84_safe (fun h => h1 (by rw [h]; rfl)) (fun h => h2 (by simp [otherLen, h])) hr
  | ver =>
    simp only [expandMode, expandWith]
    have := mapM_isSome (fun s : Meta.Segm => some (hypDataVer M I h.data s.1 s.2))
      (segmsToTry M (fun _ => false) (extractGaps I.src.length (covered h.data))) (fun _ _ => rfl)
    obtain ⟨dss, hd⟩ := Option.isSome_iff_exists.1 this
    rw [hd]; exact ⟨_, rfl⟩
  | pref =>
    simp only [expandMode, expandWith]
    have := mapM_isSome (fun s : Meta.Segm => some (hypDataPref M I h.data s.1 s.2))
      (segmsToTry M (fun _ => false) (extractGaps I.src.length (covered h.data))) (fun _ _ => rfl)
    obtain ⟨dss, hd⟩ := Option.isSome_iff_exists.1 this
    rw [hd]; exact ⟨_, rfl⟩

/-! ### C85 -/

/-- Whatever the parameters and whatever is left in the container by previous operations, translation never accesses
memory out of bounds, and its result is a hypothesis built by expanding the null hypothesis (with the score of its
extensions: C81). It is complete unless the search stopped because the container became empty or the iteration limit was
reached (or `I` is 0), or the lengths of the sentences are not allowed; except in `translate`, an incomplete result is
the null hypothesis. -/
theorem C85_result {m : Mode} {M : Model} {I : Input} (D : Dec S) (hI : m = .trans → FromRaw I)
    (ms : MultiStack.MS S HypData) : ∃ L, translate m D M I ms = some L ∧ Reach m M I L.result ∧
      (isComplete I.src.length L.result.data = true ∨ L.ended = false ∨ D.I = 0 ∨ MultiStack.empty L.s.ms = true) ∧
      (m ≠ .trans → isComplete I.src.length L.result.data = false → L.result = nullHyp M) ∧
      (lengthsOk m I = false → L.result = nullHyp M) := by
  obtain ⟨L, h1, h2, h3⟩ := translate_spec (D := D) (fun hl => safe_of hI hl) ms
  exact ⟨L, h1, h2.res, h2.how, h2.other, h3⟩

/-- The same holds for `getNextTrans` after a translation, as many times as it is called. -/
inductive Session (m : Mode) (D : Dec S) (M : Model) (I : Input) (ms : MultiStack.MS S HypData) : Loop S → Prop where
  | first {L : Loop S} : translate m D M I ms = some L → Session m D M I ms L
  | next {L L' : Loop S} : Session m D M I ms L → nextTrans m D M I L.s = some L' → Session m D M I ms L'

theorem C85_next {m : Mode} {M : Model} {I : Input} {D : Dec S} (hI : m = .trans → FromRaw I)
    (hl : lengthsOk m I = true) {ms : MultiStack.MS S HypData} {L : Loop S} (hs : Session m D M I ms L) :
    (∃ L', nextTrans m D M I L.s = some L') ∧ Reach m M I L.result ∧
      (isComplete I.src.length L.result.data = true ∨ L.ended = false ∨ D.I = 0 ∨ MultiStack.empty L.s.ms = true) := by
  have key : Final m D M I L := by
    induction hs with
    | first h =>
      obtain ⟨L', h1, h2, _⟩ := translate_spec (D := D) (fun hl => safe_of (M := M) hI hl) ms
      rw [h] at h1; cases h1; exact h2
    | @next L0 L' _ h ih =>
      obtain ⟨L1, h1, h2⟩ := decLoop_spec (safe_of (M := M) hI hl) (D.maxIter - 1)
        (L := ⟨false, nullHyp M, { L0.s with best := D.worst }⟩)
        ⟨⟨ih.s.core, ih.s.sorted, ih.s.el⟩, .null, fun h => (by cases h), fun _ _ => rfl⟩
      rw [nextTrans, decode, h1] at h; cases h; exact h2
  obtain ⟨L1, h1, _⟩ := decLoop_spec (safe_of (M := M) hI hl) (D.maxIter - 1)
    (L := ⟨false, nullHyp M, { L.s with best := D.worst }⟩)
    ⟨⟨key.s.core, key.s.sorted, key.s.el⟩, .null, fun h => (by cases h), fun _ _ => rfl⟩
  exact ⟨⟨L1, h1⟩, key.res, key.how⟩

end Thot.Search
