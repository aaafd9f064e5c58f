import Verif.Cat.Lemmas

namespace Thot.Cat

open Thot.StrProc

set_option linter.unusedSectionVars false

section
variable {Wg Rej PS : Type} (S : Sys Wg Rej PS)

/-! ## C150: suggestions begin with the text typed by the user -/

/-- The text of the user after one more request. -/
def typeStep (t : Str) : Req Rej → Str
  | .startCat _ => []
  | .addStrToPref s _ => t ++ s
  | .setPref p _ => p
  | .resetPrefix => []

/-- The text the user has typed after a history: nothing at the start of a session or after a reset, then
what was added to it, or the text last set. -/
def typed (h : List (Req Rej)) : Str := h.foldl typeStep []

/-- Requests whose answer is a suggestion that completes the text of the user. -/
def Req.completes : Req Rej → Prop
  | .addStrToPref _ _ => True
  | .setPref _ _ => True
  | _ => False

theorem newTotal_eq (t s : Str) : newTotal t s = t ++ s := by
  unfold newTotal
  split
  · rename_i h; rw [h]; rfl
  · rfl

theorem addStrAux_total {st : St Wg PS} {s : Str} {rej : Rej} {r : Str × St Wg PS}
    (h : addStrAux S st s rej = some r) : r.2.total = st.total ++ s := by
  unfold addStrAux at h
  split at h
  · rw [Option.map_eq_some_iff] at h
    obtain ⟨x, -, rfl⟩ := h
    exact newTotal_eq _ _
  · cases h
    exact newTotal_eq _ _

theorem isPrefix_drop {a b : Str} (h : isPrefix a b = true) : a ++ b.drop a.length = b := by
  obtain ⟨x, rfl⟩ := (C16_isPrefix a b).1 h
  simp

theorem setPref_total {st : St Wg PS} {p : Str} {rej : Rej} {r : Str × St Wg PS}
    (h : setPref S st p rej = some r) : r.2.total = p := by
  unfold setPref at h
  split at h
  · rename_i hp
    rw [addStrAux_total S h]
    exact isPrefix_drop hp
  · rw [addStrAux_total S h]
    rfl

theorem startCat_total (st : St Wg PS) (s : Str) : (startCat S st s).2.total = [] := by
  unfold startCat
  split <;> rfl

theorem step_total {st st' : St Wg PS} {r : Req Rej} {a : Option Str} (h : step S st r = some (a, st')) :
    st'.total = typeStep st.total r := by
  cases r with
  | startCat s => cases h; exact startCat_total S st s
  | addStrToPref s rej =>
    simp only [step, Option.map_eq_some_iff] at h
    obtain ⟨x, hx, he⟩ := h
    cases he
    exact addStrAux_total S hx
  | setPref p rej =>
    simp only [step, Option.map_eq_some_iff] at h
    obtain ⟨x, hx, he⟩ := h
    cases he
    exact setPref_total S hx
  | resetPrefix => cases h; rfl

theorem run_snoc (ps : PS) (h : List (Req Rej)) (r : Req Rej) :
    run S ps (h ++ [r]) = (run S ps h).bind fun st => (step S st r).map Prod.snd := by
  simp [run, List.foldl_append]

theorem list_snoc_ind {A : Type} {P : List A → Prop} (h0 : P []) (h1 : ∀ l a, P l → P (l ++ [a])) (l : List A) : P l := by
  have : ∀ r : List A, P r.reverse := by
    intro r
    induction r with
    | nil => exact h0
    | cons a r ih => rw [List.reverse_cons]; exact h1 _ _ ih
  rw [← List.reverse_reverse l]; exact this _

theorem run_total (ps : PS) (h : List (Req Rej)) : ∀ st, run S ps h = some st → st.total = typed h := by
  induction h using list_snoc_ind with
  | h0 => intro st h; cases h; rfl
  | h1 h r ih =>
    intro st hr
    rw [run_snoc] at hr
    obtain ⟨st1, h1, h2⟩ := Option.bind_eq_some_iff.1 hr
    obtain ⟨x, h3, rfl⟩ := Option.map_eq_some_iff.1 h2
    rw [step_total S (a := x.1) (st' := x.2) h3, ih st1 h1, typed, typed, List.foldl_append]
    rfl

/-- The engine and the word predictor work on words that contain no tabs, as words read from files and
sentences do (C15). -/
def NoTabs : Prop := (∀ g p rej, ∀ c ∈ S.correct g p rej, ∀ w ∈ c, NoTab w) ∧ ∀ h w, NoTab (S.suffix h w)

theorem addStrAux_begins {st : St Wg PS} {s : Str} {rej : Rej} {r : Str × St Wg PS}
    (h : addStrAux S st s rej = some r) (hc : S.preproc = true ∨ (NoTabs S ∧ NoTab (st.total ++ s))) :
    st.total ++ s <+: r.1 := by
  unfold addStrAux at h
  rw [newTotal_eq] at h
  split at h
  · rw [Option.map_eq_some_iff] at h
    obtain ⟨x, hx, rfl⟩ := h
    unfold robustObtainFinalOutput at hx
    rw [Option.map_eq_some_iff] at hx
    obtain ⟨y, -, rfl⟩ := hx
    rw [overwrite_begins]
    exact List.prefix_append _ _
  · rename_i hp
    cases h
    rcases hc with hc | ⟨hn, ht⟩
    · exact absurd hc hp
    · refine List.IsPrefix.trans (expand_begins S.suffix _) (robustMerge_begins (expand_noTab hn.2 ht) ?_)
      unfold atAddStr bestText
      simp only
      split
      · simp [NoTab]
      · rename_i c cs he
        exact join_noTab (hn.1 _ _ _ c (by rw [he]; simp))

theorem step_begins {st st' : St Wg PS} {r : Req Rej} {a : Str} (h : step S st r = some (some a, st'))
    (hr : r.completes) (hc : S.preproc = true ∨ (NoTabs S ∧ NoTab (typeStep st.total r))) :
    typeStep st.total r <+: a := by
  cases r with
  | startCat s => exact absurd hr id
  | addStrToPref s rej =>
    simp only [step, Option.map_eq_some_iff] at h
    obtain ⟨x, hx, he⟩ := h
    cases he
    exact addStrAux_begins S hx hc
  | setPref p rej =>
    simp only [step, Option.map_eq_some_iff] at h
    obtain ⟨x, hx, he⟩ := h
    cases he
    simp only [typeStep] at hc ⊢
    unfold setPref at hx
    split at hx
    · rename_i hp
      have e := isPrefix_drop hp
      have := addStrAux_begins S hx (by rw [e]; exact hc)
      rwa [e] at this
    · exact addStrAux_begins S hx hc
  | resetPrefix => exact absurd hr id

end

/-- **C150, full statement** (false of the code for texts with tabs, see below): whatever the history of
the session, the text of the user is what the requests say, and every suggestion begins with it. -/
def C150_full : Prop :=
  ∀ (Wg Rej PS : Type) (S : Sys Wg Rej PS), NoTabs S → ∀ (ps : PS) (h : List (Req Rej)) (r : Req Rej)
    (st st' : St Wg PS) (a : Str), run S ps h = some st → r.completes → step S st r = some (some a, st') →
    st'.total = typed (h ++ [r]) ∧ typed (h ++ [r]) <+: a

/-- **C150 (partial).** Whatever the translation engine, the pre/post-processor, the word predictor and the
history of the session, every suggestion begins with the text typed by the user: always if pre/post-processing
is enabled, and otherwise if the text and the words of the engine contain no tabs.  Missing: texts with tabs
without pre/post-processing (`C150_counterexample`). -/
theorem C150_begins_with_typed_partial {Wg Rej PS : Type} (S : Sys Wg Rej PS) (ps : PS) (h : List (Req Rej))
    (r : Req Rej) (st st' : St Wg PS) (a : Str) (hrun : run S ps h = some st) (hr : r.completes)
    (hs : step S st r = some (some a, st'))
    (hc : S.preproc = true ∨ (NoTabs S ∧ '\t' ∉ typed (h ++ [r]))) :
    st'.total = typed (h ++ [r]) ∧ typed (h ++ [r]) <+: a := by
  have e : typed (h ++ [r]) = typeStep st.total r := by
    rw [run_total S ps h st hrun, typed, typed, List.foldl_append]; rfl
  rw [e] at hc ⊢
  exact ⟨step_total S hs, step_begins S hs hr hc⟩

/-- Without pre/post-processing no request is undefined. -/
theorem C150_defined {Wg Rej PS : Type} (S : Sys Wg Rej PS) (hp : S.preproc = false) (ps : PS)
    (h : List (Req Rej)) : ∃ st, run S ps h = some st := by
  have hadd : ∀ (st : St Wg PS) (s : Str) (rej : Rej), ∃ x, addStrAux S st s rej = some x := by
    intro st s rej
    unfold addStrAux
    rw [if_neg (by simp [hp])]
    exact ⟨_, rfl⟩
  have hstep : ∀ (st : St Wg PS) (r : Req Rej), ∃ x, step S st r = some x := by
    intro st r
    cases r with
    | startCat s => exact ⟨_, rfl⟩
    | addStrToPref s rej => obtain ⟨x, hx⟩ := hadd st s rej; exact ⟨_, by rw [step, hx]; rfl⟩
    | setPref p rej =>
      have : ∃ x, setPref S st p rej = some x := by
        unfold setPref
        split
        · exact hadd _ _ _
        · exact hadd _ _ _
      obtain ⟨x, hx⟩ := this
      exact ⟨_, by rw [step, hx]; rfl⟩
    | resetPrefix => exact ⟨_, rfl⟩
  induction h using list_snoc_ind with
  | h0 => exact ⟨_, rfl⟩
  | h1 h r ih =>
    obtain ⟨st, hst⟩ := ih
    obtain ⟨x, hx⟩ := hstep st r
    exact ⟨x.2, by rw [run_snoc, hst, Option.bind_some, hx]; rfl⟩

/-- An engine that always proposes `ab cd ef`, without pre/post-processing and without word prediction. -/
def demo : Sys Unit Unit Unit where
  wgFor _ := ((), true)
  correct _ _ _ := [["ab".toList, "cd".toList, "ef".toList]]
  noRej := ()
  suffix _ _ := []
  preproc := false
  pre _ s _ := (s, ())
  post _ s := s
  isCategory _ := false

theorem demo_noTabs : NoTabs demo := by
  refine ⟨?_, by intro h w; simp [NoTab, demo]⟩
  intro g p rej c hc w hw
  simp only [demo, List.mem_cons, List.not_mem_nil, or_false] at hc
  subst hc
  revert w
  unfold NoTab
  decide

/-- The text `ab<tab>cd` is not kept: the suggestion is `abcdef`. -/
theorem C150_counterexample : ¬ C150_full := by
  intro h
  have h1 : (setPref demo ⟨none, [], [], ()⟩ "ab\tcd".toList ()).map Prod.fst = some "abcdef".toList := by
    decide +kernel
  obtain ⟨x, hx, hx1⟩ := Option.map_eq_some_iff.1 h1
  have := (h Unit Unit Unit demo demo_noTabs () [] (.setPref "ab\tcd".toList ()) ⟨none, [], [], ()⟩
    x.2 x.1 rfl trivial (by rw [step, hx]; rfl)).2
  rw [hx1] at this
  revert this
  decide +kernel

/-- A session: start, type `a`, complete it to `ab  c`, and the suggestion keeps both blanks. -/
example : (run demo () [.startCat "x".toList, .addStrToPref "a".toList ()]).bind
    (fun st => (step demo st (.addStrToPref "b  c".toList ())).map Prod.fst) = some (some "ab  cd ef".toList) := by
  decide +kernel

/-! ## C151: suggestions depend on the sentence and the text only -/

/-- The requests after the start of a session. -/
def Req.continues {Rej : Type} : Req Rej → Prop
  | .startCat _ => False
  | _ => True

/-- A history of requests from a given state. -/
def runFrom {Wg Rej PS : Type} (S : Sys Wg Rej PS) (st : St Wg PS) (h : List (Req Rej)) : Option (St Wg PS) :=
  h.foldl (fun st r => st.bind fun st => (step S st r).map Prod.snd) (some st)

/-- The rejected words of a request. -/
def Req.rejected {Rej : Type} : Req Rej → Option Rej
  | .addStrToPref _ r => some r
  | .setPref _ r => some r
  | _ => none

/-- Preprocessing a prefix does not keep anything that matters for later prefixes. -/
def PrefixesForgotten {Wg Rej PS : Type} (S : Sys Wg Rej PS) : Prop :=
  ∀ s x y, S.pre (S.pre s x false).2 y false = S.pre s y false

section
variable {Wg Rej PS : Type} (S : Sys Wg Rej PS)

/-- Two states of the same session. -/
def Same (st st' : St Wg PS) : Prop :=
  st.linked = st'.linked ∧ ∀ y, S.pre st.ps y false = S.pre st'.ps y false

theorem addStrAux_same (hf : PrefixesForgotten S) {st st' : St Wg PS} (h : Same S st st') {s s' : Str} {rej : Rej}
    (ht : st.total ++ s = st'.total ++ s') (hps : S.preproc = false → st.ps = st'.ps) :
    addStrAux S st s rej = addStrAux S st' s' rej ∧
      ∀ r, addStrAux S st s rej = some r → Same S st r.2 ∧ (S.preproc = false → r.2.ps = st.ps) := by
  constructor
  · unfold addStrAux
    rw [newTotal_eq, newTotal_eq, ht, h.2]
    cases hp : S.preproc with
    | true =>
      rw [if_pos rfl, if_pos rfl]
      simp only [atReset, atAddStr, h.1]
    | false =>
      rw [if_neg (by simp), if_neg (by simp)]
      simp only [atReset, atAddStr, h.1, hps hp]
  · intro r hr
    unfold addStrAux at hr
    split at hr
    · rename_i hp
      rw [Option.map_eq_some_iff] at hr
      obtain ⟨x, -, rfl⟩ := hr
      exact ⟨⟨rfl, fun y => (hf _ _ y).symm⟩, fun hq => by rw [hq] at hp; cases hp⟩
    · cases hr
      exact ⟨⟨rfl, fun y => rfl⟩, fun _ => rfl⟩

theorem setPref_eq (st : St Wg PS) (p : Str) (rej : Rej) : ∃ st1 s, setPref S st p rej = addStrAux S st1 s rej ∧
    st1.total ++ s = p ∧ st1.linked = st.linked ∧ st1.ps = st.ps := by
  unfold setPref
  split
  · rename_i h
    exact ⟨st, _, rfl, isPrefix_drop h, rfl, rfl⟩
  · exact ⟨resetAux st, p, rfl, rfl, rfl, rfl⟩

theorem step_same (hf : PrefixesForgotten S) {st st' : St Wg PS} {r : Req Rej} {a : Option Str}
    (hr : r.continues) (h : step S st r = some (a, st')) : Same S st st' ∧ (S.preproc = false → st'.ps = st.ps) := by
  cases r with
  | startCat s => exact absurd hr id
  | addStrToPref s rej =>
    simp only [step, Option.map_eq_some_iff] at h
    obtain ⟨x, hx, he⟩ := h
    cases he
    exact (addStrAux_same S hf (st := st) (st' := st) ⟨rfl, fun _ => rfl⟩ rfl (fun _ => rfl)).2 x hx
  | setPref p rej =>
    simp only [step, Option.map_eq_some_iff] at h
    obtain ⟨x, hx, he⟩ := h
    cases he
    obtain ⟨st1, s, e1, e2, e3, e4⟩ := setPref_eq S st p rej
    rw [e1] at hx
    have := (addStrAux_same S hf (st := st1) (st' := st1) ⟨rfl, fun _ => rfl⟩ rfl (fun _ => rfl)).2 x hx
    unfold Same at this ⊢
    rw [e3, e4] at this
    exact this
  | resetPrefix => cases h; exact ⟨⟨rfl, fun _ => rfl⟩, fun _ => rfl⟩

theorem runFrom_same (hf : PrefixesForgotten S) (st0 : St Wg PS) (h : List (Req Rej)) :
    (∀ r ∈ h, r.continues) → ∀ st, runFrom S st0 h = some st →
    Same S st0 st ∧ (S.preproc = false → st.ps = st0.ps) ∧ st.total = h.foldl typeStep st0.total := by
  induction h using list_snoc_ind with
  | h0 => intro _ st h; cases h; exact ⟨⟨rfl, fun _ => rfl⟩, fun _ => rfl, rfl⟩
  | h1 h r ih =>
    intro hc st hr
    have e : runFrom S st0 (h ++ [r]) = (runFrom S st0 h).bind fun st => (step S st r).map Prod.snd := by
      simp [runFrom, List.foldl_append]
    rw [e] at hr
    obtain ⟨st1, h1, h2⟩ := Option.bind_eq_some_iff.1 hr
    obtain ⟨x, h3, rfl⟩ := Option.map_eq_some_iff.1 h2
    obtain ⟨⟨g1, g2⟩, g3, g4⟩ := ih (fun r hr => hc r (by simp [hr])) st1 h1
    obtain ⟨⟨k1, k2⟩, k3⟩ := step_same S hf (a := x.1) (st' := x.2) (hc r (by simp)) h3
    refine ⟨⟨g1.trans k1, fun y => (g2 y).trans (k2 y)⟩, fun hp => (k3 hp).trans (g3 hp), ?_⟩
    rw [step_total S (a := x.1) (st' := x.2) h3, g4, List.foldl_append]
    rfl

theorem step_completes (st : St Wg PS) (r : Req Rej) (hr : r.completes) : ∃ st1 s rej, r.rejected = some rej ∧
    step S st r = (addStrAux S st1 s rej).map (fun x => (some x.1, x.2)) ∧ st1.total ++ s = typeStep st.total r ∧
    st1.linked = st.linked ∧ st1.ps = st.ps := by
  cases r with
  | startCat s => exact absurd hr id
  | addStrToPref s rej => exact ⟨st, s, rej, rfl, rfl, rfl, rfl, rfl⟩
  | setPref p rej =>
    obtain ⟨st1, s, e1, e2, e3, e4⟩ := setPref_eq S st p rej
    exact ⟨st1, s, rej, rfl, by rw [step, e1], e2, e3, e4⟩
  | resetPrefix => exact absurd hr id

end

/-- **C151.** After the same start of a session (or from any state), two continuations that leave the user
with the same text get the same suggestion from their last requests, whatever was typed, set or reset in
between (if it rejects the same words and preprocessing a prefix leaves no trace). -/
theorem C151_history_independent {Wg Rej PS : Type} (S : Sys Wg Rej PS) (hf : PrefixesForgotten S)
    (st0 st1 st2 : St Wg PS) (h1 h2 : List (Req Rej)) (r1 r2 : Req Rej)
    (hc1 : ∀ r ∈ h1, r.continues) (hc2 : ∀ r ∈ h2, r.continues)
    (hr1 : runFrom S st0 h1 = some st1) (hr2 : runFrom S st0 h2 = some st2)
    (hk1 : r1.completes) (hk2 : r2.completes) (hrej : r1.rejected = r2.rejected)
    (ht : (h1 ++ [r1]).foldl typeStep st0.total = (h2 ++ [r2]).foldl typeStep st0.total) :
    (step S st1 r1).map Prod.fst = (step S st2 r2).map Prod.fst := by
  obtain ⟨⟨a1, a2⟩, a3, a4⟩ := runFrom_same S hf st0 h1 hc1 st1 hr1
  obtain ⟨⟨b1, b2⟩, b3, b4⟩ := runFrom_same S hf st0 h2 hc2 st2 hr2
  obtain ⟨u1, s1, j1, e1, e2, e3, e4, e5⟩ := step_completes S st1 r1 hk1
  obtain ⟨u2, s2, j2, f1, f2, f3, f4, f5⟩ := step_completes S st2 r2 hk2
  have hj : j1 = j2 := by
    rw [hrej, f1] at e1; cases e1; rfl
  rw [List.foldl_append, List.foldl_append] at ht
  have ht' : u1.total ++ s1 = u2.total ++ s2 := by
    rw [e3, f3, a4, b4]; exact ht
  have hsame : Same S u1 u2 := by
    refine ⟨?_, fun y => ?_⟩
    · rw [e4, f4, ← a1, ← b1]
    · rw [e5, f5, ← a2, ← b2]
  have := (addStrAux_same S hf hsame (rej := j1) ht' (fun hp => by rw [e5, f5, a3 hp, b3 hp])).1
  rw [e2, f2, this, hj]

/-- **C151.** Setting the prefix is the same as resetting it and adding the new one, and adding two strings
one after the other ends with the same suggestion as adding them at once. -/
theorem C151_set_is_reset_and_add {Wg Rej PS : Type} (S : Sys Wg Rej PS) (hf : PrefixesForgotten S)
    (st st1 : St Wg PS) (p a b : Str) (rej rej' : Rej) :
    (step S st (.setPref p rej)).map Prod.fst = (step S (resetAux st) (.addStrToPref p rej)).map Prod.fst ∧
    (runFrom S st [.addStrToPref a rej'] = some st1 →
      (step S st1 (.addStrToPref b rej)).map Prod.fst = (step S st (.addStrToPref (a ++ b) rej)).map Prod.fst) := by
  constructor
  · exact C151_history_independent S hf st st (resetAux st) [] [.resetPrefix] _ _ (by simp)
      (by simp [Req.continues]) rfl rfl trivial trivial rfl rfl
  · intro h
    exact C151_history_independent S hf st st1 st [.addStrToPref a rej'] [] _ _ (by simp [Req.continues])
      (by simp) h rfl trivial trivial rfl (by simp [typeStep])

/-- A pre-processor that remembers the last prefix forgets the earlier ones. -/
example : PrefixesForgotten (Wg := Unit) (Rej := Unit) (PS := Str)
    { demo with pre := fun st s keep => if keep then (s, st) else (s, s), post := fun _ s => s } := by
  intro s x y; rfl

/-! ## C152: post-processing reads inside the translation -/

theorem readUpTo_some (s : Str) (n : Nat) (h : n ≤ s.length + 1) :
    readUpTo s n = some ((s ++ [Char.ofNat 0]).take n) := by
  induction n with
  | zero => rfl
  | succ n ih =>
    rw [readUpTo, ih (by omega), Option.bind_some, charAt, List.take_add_one]
    by_cases hn : n < s.length
    · rw [if_pos hn, List.getElem?_append_left hn, List.getElem?_eq_getElem hn]; rfl
    · rw [if_neg hn, if_pos (by omega)]
      have : n = s.length := by omega
      rw [this]; simp

theorem readUpTo_none (s : Str) (n : Nat) (h : s.length + 1 < n) : readUpTo s n = none := by
  obtain ⟨k, rfl⟩ : ∃ k, n = s.length + 2 + k := ⟨n - (s.length + 2), by omega⟩
  clear h
  induction k with
  | zero =>
    rw [show s.length + 2 + 0 = (s.length + 1) + 1 from rfl, readUpTo]
    have : charAt s (s.length + 1) = none := by
      unfold charAt; rw [if_neg (by omega), if_neg (by omega)]
    rw [this]
    cases readUpTo s (s.length + 1) <;> rfl
  | succ k ih =>
    rw [show s.length + 2 + (k + 1) = (s.length + 2 + k) + 1 from rfl, readUpTo, ih]
    rfl

/-- A preprocessed prefix: words separated by single blanks, with at most one blank at the end. -/
def Normal (s : Str) : Prop :=
  ∃ ws : List Str, (∀ w ∈ ws, w ≠ [] ∧ ∀ c ∈ w, c ≠ ' ' ∧ c ≠ '\t') ∧
    (s = stringVectorToString ws ∨ s = stringVectorToString ws ++ [' '])

/-- **C152, full statement** (false of the code, see below): with pre/post-processing every request after any
history is defined. -/
def C152_full : Prop :=
  ∀ (Wg Rej PS : Type) (S : Sys Wg Rej PS) (ps : PS) (h : List (Req Rej)), ∃ st, run S ps h = some st

theorem restOfWord_length (s : Str) : (restOfWord s).length ≤ s.length := by
  induction s with
  | nil => exact Nat.le_refl _
  | cons c s ih =>
    rw [restOfWord]
    split
    · exact Nat.succ_le_succ ih
    · exact Nat.zero_le _

theorem prefEnd_le (unexp trans : Str) (b : Bool) (h : unexp.length ≤ trans.length + 1) :
    (prefEnd unexp trans b).1 ≤ trans.length + 1 := by
  unfold prefEnd
  split
  · rename_i hc
    have := restOfWord_length (trans.drop unexp.length)
    rw [List.length_drop] at this
    simp only
    split <;> omega
  · exact h

theorem join_length (ws : List Str) : (stringVectorToString ws).length = ws.flatten.length + (ws.length - 1) := by
  cases ws with
  | nil => rfl
  | cons w ws =>
    simp only [stringVectorToString]
    induction ws generalizing w with
    | nil => simp [joinLoop]
    | cons v ws ih =>
      rw [joinLoop, ih]
      simp
      omega

theorem tokens_length {s : Str} {ts : List Str} (h : Tokens s ts) : ts.flatten.length + (ts.length - 1) ≤ s.length ∧
    ((∃ c r, s = c :: r ∧ isBlank c = true) → ts ≠ [] → ts.flatten.length + ts.length ≤ s.length) := by
  induction h with
  | nil _ => simp
  | @cons b t rest ts h1 h2 h3 h4 ih =>
    have hrest : ts.flatten.length + ts.length ≤ rest.length := by
      rcases h3 with h3 | h3
      · subst h3
        have := h4.words
        cases ts with
        | nil => simp
        | cons u us =>
          exfalso
          have h5 := this.2
          simp only [List.filter_nil, List.flatten_cons, List.append_eq_nil_iff] at h5
          exact (this.1 u (by simp)).1 h5.1
      · cases ts with
        | nil => simp
        | cons u us => exact ih.2 h3 (by simp)
    simp only [List.flatten_cons, List.length_append, List.length_cons]
    refine ⟨by omega, ?_⟩
    rintro ⟨c, r, he, hc⟩ -
    have hb : b.length ≠ 0 := by
      intro hb
      have hb : b = [] := by simpa using hb
      subst hb
      cases t with
      | nil => exact h2.1 rfl
      | cons d t =>
        simp only [List.nil_append, List.cons_append, List.cons.injEq] at he
        have := h2.2 d (by simp)
        rw [he.1, hc] at this
        cases this
    omega

theorem tokens_append {u : Str} {ts : List Str} (h : Tokens u ts) (z : Str) :
    ∃ ts', Tokens (u ++ z) ts' ∧ ts.length ≤ ts'.length := by
  induction h with
  | nil _ => exact ⟨_, C15_tokens _, Nat.zero_le _⟩
  | @cons b t rest ts h1 h2 h3 h4 ih =>
    rcases h3 with h3 | ⟨c, r, h3, hc⟩
    · subst h3
      have ht : ts = [] := (h4.unique (Tokens.nil (b := []) (by simp [Blanks])))
      subst ht
      refine ⟨_, C15_tokens _, ?_⟩
      have hw := (C15_tokens (b ++ t ++ [] ++ z)).words.2
      cases hs : stringToStringVector (b ++ t ++ [] ++ z) with
      | cons x xs => simp
      | nil =>
        exfalso
        rw [hs] at hw
        simp only [List.flatten_nil, List.filter_append, List.nil_eq, List.append_eq_nil_iff] at hw
        cases t with
        | nil => exact h2.1 rfl
        | cons d t =>
          have := hw.1.1.2
          rw [List.filter_cons_of_pos (by simp [h2.2 d (by simp)])] at this
          cases this
    · obtain ⟨ts', g1, g2⟩ := ih
      refine ⟨t :: ts', ?_, by simpa using g2⟩
      rw [List.append_assoc]
      exact .cons h1 h2 (Or.inr ⟨c, r ++ z, by rw [h3]; rfl, hc⟩) g1

theorem normal_length {unexp pref trans : Str} (hn : Normal unexp) (hp : unexp <+: pref)
    (h : isPrefixStrVec (stringToStringVector pref) (stringToStringVector trans) = true) :
    unexp.length ≤ trans.length + 1 := by
  obtain ⟨ws, hw, hu⟩ := hn
  have hw' : ∀ w ∈ ws, IsWord w := fun w hm => ⟨(hw w hm).1, fun c hc => by
    rw [Bool.eq_false_iff, ne_eq, isBlank_iff]
    exact fun hh => hh.elim ((hw w hm).2 c hc).1 ((hw w hm).2 c hc).2⟩
  have htok0 := tokens_join ws hw'
  -- the length of the prefix
  have hul : unexp.length ≤ ws.flatten.length + (ws.length - 1) + 1 := by
    have := join_length ws
    rcases hu with hu | hu
    · rw [hu]; omega
    · rw [hu, List.length_append, List.length_singleton]; omega
  obtain ⟨z, rfl⟩ := hp
  obtain ⟨z', hz'⟩ : ∃ z', unexp ++ z = stringVectorToString ws ++ z' := by
    rcases hu with hu | hu
    · exact ⟨z, by rw [hu]⟩
    · exact ⟨[' '] ++ z, by rw [hu]; simp⟩
  obtain ⟨ts', h1, h2⟩ := tokens_append htok0 z'
  rw [← hz'] at h1
  have e := (C15_tokens (unexp ++ z)).unique h1
  have h3 : ws.flatten.length ≤ ts'.flatten.length := by
    rw [h1.words.2, htok0.words.2, hz', List.filter_append, List.length_append]
    omega
  have h4 := (tokens_length (C15_tokens trans)).1
  rw [e] at h
  rcases (C16_isPrefixStrVec _ _).1 h with h | ⟨i, l, x, r, h5, h6⟩
  · rw [h] at h2 h3
    simp only [List.length_nil, List.flatten_nil, Nat.le_zero] at h2 h3
    omega
  · rw [h6] at h4
    rw [h5] at h2 h3
    simp only [List.flatten_append, List.flatten_cons, List.length_append, List.flatten_nil, List.length_nil,
      List.length_cons] at h2 h3 h4
    omega

theorem final_defined (isCat : Str → Bool) (post : Str → Str) (suf : List Str → Str → Str) (unpre unexp trans : Str)
    (hn : Normal unexp) :
    ∃ r, robustObtainFinalOutput isCat post unpre unexp (expandLastWord suf unexp).2 trans = some r := by
  have key : ∀ tr : Str, unexp.length ≤ tr.length + 1 →
      ∃ r, postprocWithCriticalError isCat post unpre unexp (expandLastWord suf unexp).2 tr = some r := by
    intro tr h
    unfold postprocWithCriticalError
    rw [readUpTo_some _ _ (prefEnd_le unexp tr _ h)]
    exact ⟨_, rfl⟩
  have hb := expand_begins suf unexp
  unfold robustObtainFinalOutput
  split
  · obtain ⟨r, hr⟩ := key _ (Nat.le_succ_of_le hb.length_le)
    exact ⟨_, by rw [hr]; rfl⟩
  · rename_i h
    obtain ⟨r, hr⟩ := key trans (normal_length hn hb (by simpa using h))
    exact ⟨_, by rw [hr]; rfl⟩

/-- **C152 (partial).** If pre-processing gives words separated by single blanks, with at most one blank at
the end, then no request reads outside a string, whatever the history, the engine and the post-processor.
Missing: other pre-processors, for which reads outside the translation are possible
(`C152_counterexample`). -/
theorem C152_postprocessing_defined_partial {Wg Rej PS : Type} (S : Sys Wg Rej PS)
    (hn : ∀ ps s, Normal (S.pre ps s false).1) (ps : PS) (h : List (Req Rej)) : ∃ st, run S ps h = some st := by
  have hadd : ∀ (st : St Wg PS) (s : Str) (rej : Rej), ∃ x, addStrAux S st s rej = some x := by
    intro st s rej
    unfold addStrAux
    split
    · obtain ⟨r, hr⟩ := final_defined S.isCategory (S.post (S.pre st.ps (newTotal st.total s) false).2) S.suffix
        (newTotal st.total s) (S.pre st.ps (newTotal st.total s) false).1 _ (hn _ _)
      exact ⟨_, by rw [hr]; rfl⟩
    · exact ⟨_, rfl⟩
  have hstep : ∀ (st : St Wg PS) (r : Req Rej), ∃ x, step S st r = some x := by
    intro st r
    cases r with
    | startCat s => exact ⟨_, rfl⟩
    | addStrToPref s rej => obtain ⟨x, hx⟩ := hadd st s rej; exact ⟨_, by rw [step, hx]; rfl⟩
    | setPref p rej =>
      have : ∃ x, setPref S st p rej = some x := by
        unfold setPref
        split
        · exact hadd _ _ _
        · exact hadd _ _ _
      obtain ⟨x, hx⟩ := this
      exact ⟨_, by rw [step, hx]; rfl⟩
    | resetPrefix => exact ⟨_, rfl⟩
  induction h using list_snoc_ind with
  | h0 => exact ⟨_, rfl⟩
  | h1 h r ih =>
    obtain ⟨st, hst⟩ := ih
    obtain ⟨x, hx⟩ := hstep st r
    exact ⟨x.2, by rw [run_snoc, hst, Option.bind_some, hx]; rfl⟩

/-- The engine of `demo` with a pre/post-processor that changes nothing. -/
def demoPre : Sys Unit Unit Unit := { demo with preproc := true, correct := fun _ _ _ => [["ab".toList]] }

/-- With the text `ab` followed by four blanks, which the pre-processor keeps, the program reads four
positions after the end of the translation `ab`. -/
theorem C152_counterexample : ¬ C152_full := by
  intro h
  obtain ⟨st, hst⟩ := h Unit Unit Unit demoPre () [.setPref "ab    ".toList ()]
  have : (run demoPre () [.setPref "ab    ".toList ()]).isSome = false := by decide +kernel
  rw [hst] at this
  cases this

/-- A pre-processor that normalises blanks meets the hypothesis. -/
example : ∀ ps s, Normal ((fun (_ : Unit) (s : Str) => (stringVectorToString (stringToStringVector s), ps)) ps s).1 :=
  fun _ s => ⟨stringToStringVector s, (C15_token_facts s).1, Or.inl rfl⟩

example : (run demoPre () [.startCat "x".toList, .setPref "ab ".toList ()]).isSome = true := by decide +kernel

/-! ## C153: suggestions have the words of the translation -/

/-- **C153, full statement** (false of the code for the texts given below): if the translation of the engine
contains the text of the user, the suggestion has exactly the words of the translation. -/
def C153_full : Prop :=
  ∀ t p : Str, '\t' ∉ p → '\t' ∉ t → isPrefixStrVec (stringToStringVector p) (stringToStringVector t) = true →
    stringToStringVector (robustMerge t p) = stringToStringVector t

theorem blanks_of_allBlank {b : Str} (h : AllBlank b) : Blanks b := fun c hc => by rw [h c hc]; rfl

theorem allBlank_of_blanks {b : Str} (hb : Blanks b) (ht : NoTab b) : AllBlank b := by
  intro c hc
  rcases (isBlank_iff c).1 (hb c hc) with h | h
  · exact h
  · exact absurd (h ▸ hc) ht

theorem takeBlanks_append {b : Str} (hb : AllBlank b) (s : Str) (hs : s = [] ∨ ∃ c r, s = c :: r ∧ c ≠ ' ') :
    takeBlanks (b ++ s) = (b, s) := by
  induction b with
  | nil =>
    rcases hs with rfl | ⟨c, r, rfl, hc⟩
    · rfl
    · rw [List.nil_append, takeBlanks, if_neg hc]
  | cons c b ih =>
    have hc : c = ' ' := hb c (by simp)
    rw [List.cons_append, takeBlanks, if_pos hc, ih (fun x hx => hb x (by simp [hx]))]

/-- Blanks before a word of the prefix are kept and those before a word of the translation dropped. -/
theorem merge_skip {b c : Str} (hb : AllBlank b) (hc : AllBlank c) {x : Char} (hx : x ≠ ' ') (p : Str)
    {y : Char} (hy : y ≠ ' ') (t : Str) :
    mergeLoop (b ++ x :: p) (c ++ y :: t) = b ++ y :: mergeLoop p t := by
  induction c generalizing b with
  | nil =>
    rw [List.nil_append, mergeLoop_cons, if_pos (Or.inl hy), takeBlanks_append hb _ (Or.inr ⟨x, p, rfl, hx⟩)]
    rfl
  | cons a c ih =>
    have ha : a = ' ' := hc a (by simp)
    rw [List.cons_append, mergeLoop_cons, if_neg (by simp [ha]), takeBlanks_append hb _ (Or.inr ⟨x, p, rfl, hx⟩)]
    have := ih (b := []) (by simp [AllBlank]) (fun z hz => hc z (by simp [hz]))
    rw [List.nil_append] at this
    rw [this]
    rfl

theorem merge_word {w : Str} (hw : ∀ c ∈ w, c ≠ ' ') (p t : Str) : mergeLoop (w ++ p) (w ++ t) = w ++ mergeLoop p t := by
  induction w with
  | nil => rfl
  | cons c w ih =>
    have hc := hw c (by simp)
    have := merge_skip (b := []) (c := []) (by simp [AllBlank]) (by simp [AllBlank]) hc (w ++ p) hc (w ++ t)
    rw [List.nil_append, List.nil_append, List.nil_append] at this
    rw [List.cons_append, List.cons_append, this, ih (fun z hz => hw z (by simp [hz]))]
    rfl

theorem noTab_append {a b : Str} (h : NoTab (a ++ b)) : NoTab a ∧ NoTab b := by
  unfold NoTab at *
  simp only [List.mem_append, not_or] at h
  exact h

/-- Only blanks in the prefix: they come first. -/
theorem merge_blanks {b : Str} (hb : AllBlank b) {t : Str} {ts : List Str} (ht : Tokens t ts) :
    Tokens (mergeLoop b t) ts ∧ (b ≠ [] → ∃ c r, mergeLoop b t = c :: r ∧ isBlank c = true) := by
  cases t with
  | nil =>
    rw [mergeLoop_nil_right]
    refine ⟨by have := ht.blanks (blanks_of_allBlank hb); rwa [List.append_nil] at this, ?_⟩
    intro hne
    cases b with
    | nil => exact absurd rfl hne
    | cons c b => exact ⟨c, b, rfl, by rw [hb c (by simp)]; rfl⟩
  | cons a t =>
    by_cases hne : b = []
    · subst hne
      rw [mergeLoop_nil]
      exact ⟨ht, fun h => absurd rfl h⟩
    · have hst : ∀ s : Str, ∃ c r, b ++ s = c :: r ∧ isBlank c = true := by
        intro s
        cases b with
        | nil => exact absurd rfl hne
        | cons c b => exact ⟨c, b ++ s, rfl, by rw [hb c (by simp)]; rfl⟩
      have e := takeBlanks_append hb [] (Or.inl rfl)
      rw [List.append_nil] at e
      rw [mergeLoop_cons, e]
      by_cases ha : a = ' '
      · rw [if_neg (by simp [ha, hne])]
        simp only [mergeLoop_nil]
        refine ⟨?_, fun _ => hst _⟩
        have h1 : Tokens t ts := by
          have h2 := (C15_tokens t).blanks (b := [a]) (by simp [Blanks, ha, isBlank])
          have h3 := h2.unique ht
          rw [← h3]; exact C15_tokens t
        exact h1.blanks (blanks_of_allBlank hb)
      · rw [if_pos (Or.inl ha)]
        simp only [List.tail_nil, mergeLoop_nil]
        exact ⟨ht.blanks (blanks_of_allBlank hb), fun _ => hst _⟩

theorem word_head {w : Str} (h : IsWord w) : ∃ c r, w = c :: r ∧ c ≠ ' ' ∧ ∀ x ∈ r, x ≠ ' ' := by
  cases w with
  | nil => exact absurd rfl h.1
  | cons c r =>
    have : ∀ x ∈ c :: r, x ≠ ' ' := by
      intro x hx he
      have := h.2 x hx
      rw [he] at this
      cases this
    exact ⟨c, r, rfl, this c (by simp), fun x hx => this x (by simp [hx])⟩

theorem merge_tokens {p : Str} {us : List Str} (hp : Tokens p us) : ∀ {t : Str} {ts : List Str}, Tokens t ts →
    NoTab p → NoTab t → isPrefixStrVec us ts = true → (p.getLast? = some ' ' → us <+: ts) →
    Tokens (mergeLoop p t) ts ∧
      ((∃ c r, p = c :: r ∧ isBlank c = true) → ∃ c r, mergeLoop p t = c :: r ∧ isBlank c = true) := by
  induction hp with
  | nil hb =>
    intro t ts ht hnp hnt _ _
    obtain ⟨h1, h2⟩ := merge_blanks (allBlank_of_blanks hb hnp) ht
    refine ⟨h1, ?_⟩
    rintro ⟨c, r, rfl, -⟩
    exact h2 (by simp)
  | @cons b u p2 us h1 h2 h3 h4 ih =>
    intro t ts ht hnp hnt hpre hlast
    have hpre' := (C16_isPrefixStrVec _ _).1 hpre
    obtain ⟨hnp1, hnp2⟩ := noTab_append hnp
    have hbb := allBlank_of_blanks h1 (noTab_append hnp1).1
    cases ht with
    | nil hb =>
      exfalso
      rcases hpre' with h | ⟨i, l, x, r, -, h⟩
      · cases h
      · simp at h
    | @cons b' v t2 ts g1 g2 g3 g4 =>
      obtain ⟨hnt1, hnt2⟩ := noTab_append hnt
      have hbb' := allBlank_of_blanks g1 (noTab_append hnt1).1
      obtain ⟨x, r, rfl, hx, hr⟩ := word_head h2
      have hstart : ∀ s : Str, (∃ c z, b ++ x :: s = c :: z ∧ isBlank c = true) →
          ∀ s' : Str, ∃ c z, b ++ x :: s' = c :: z ∧ isBlank c = true := by
        rintro s ⟨c, z, he, hc⟩ s'
        cases b with
        | nil =>
          simp only [List.nil_append, List.cons.injEq] at he
          rw [← he.1] at hc
          have := h2.2 x (by simp)
          rw [hc] at this; cases this
        | cons d b => exact ⟨d, b ++ x :: s', rfl, h1 d (by simp)⟩
      by_cases hus : us = []
      · -- the last word of the prefix
        subst hus
        obtain ⟨y, rfl⟩ : ∃ y, v = (x :: r) ++ y := by
          rcases hpre' with h | ⟨i, l, y, q, h, h'⟩
          · cases h
          · cases i with
            | nil =>
              simp only [List.nil_append, List.cons.injEq, and_true] at h h'
              exact ⟨y, by rw [h'.1, h]⟩
            | cons d i => simp at h
        have e1 : mergeLoop (b ++ x :: r ++ p2) (b' ++ ((x :: r) ++ y) ++ t2) =
            b ++ x :: (r ++ mergeLoop p2 (y ++ t2)) := by
          have := merge_skip hbb hbb' hx (r ++ p2) hx (r ++ (y ++ t2))
          rw [merge_word hr] at this
          simpa using this
        rw [e1]
        refine ⟨?_, fun h => hstart (r ++ p2) (by simpa using h) _⟩
        have hp2 : AllBlank p2 := by
          cases h4 with
          | nil hb => exact allBlank_of_blanks hb hnp2
        by_cases hp2e : p2 = []
        · subst hp2e
          rw [mergeLoop_nil]
          have := Tokens.cons h1 g2 g3 g4
          simpa using this
        · have hy : y = [] := by
            have hl : (b ++ x :: r ++ p2).getLast? = some ' ' := by
              rw [List.getLast?_append, List.getLast?_eq_some_getLast hp2e,
                hp2 _ (List.getLast_mem hp2e)]
              rfl
            have := hlast hl
            rw [List.cons_prefix_cons] at this
            have := this.1
            simpa using this.symm
          subst hy
          rw [List.nil_append]
          obtain ⟨k1, k2⟩ := merge_blanks hp2 g4
          have := Tokens.cons h1 h2 (Or.inr (k2 hp2e)) k1
          simpa using this
      · -- not the last word
        have hv : v = x :: r ∧ isPrefixStrVec us ts = true := by
          rcases hpre' with h | ⟨i, l, y, q, h, h'⟩
          · cases h
          · cases i with
            | nil => simp at h; exact absurd h.2 hus
            | cons d i =>
              simp only [List.cons_append, List.cons.injEq] at h h'
              exact ⟨h'.1.trans h.1.symm, (C16_isPrefixStrVec _ _).2 (Or.inr ⟨i, l, y, q, h.2, h'.2⟩)⟩
        obtain ⟨hv, hpre2⟩ := hv
        subst hv
        have e1 : mergeLoop (b ++ x :: r ++ p2) (b' ++ x :: r ++ t2) = b ++ x :: (r ++ mergeLoop p2 t2) := by
          have := merge_skip hbb hbb' hx (r ++ p2) hx (r ++ t2)
          rw [merge_word hr] at this
          simpa using this
        rw [e1]
        refine ⟨?_, fun h => hstart (r ++ p2) (by simpa using h) _⟩
        have hp2 : ∃ c z, p2 = c :: z ∧ isBlank c = true := by
          rcases h3 with h3 | h3
          · subst h3
            exact absurd (h4.unique (Tokens.nil (b := []) (by simp [Blanks]))) hus
          · exact h3
        have hl2 : p2.getLast? = some ' ' → us <+: ts := by
          intro h
          have : (b ++ x :: r ++ p2).getLast? = some ' ' := by
            rw [List.getLast?_append, h]; rfl
          have := hlast this
          rw [List.cons_prefix_cons] at this
          exact this.2
        obtain ⟨k1, k2⟩ := ih g4 hnp2 hnt2 hpre2 hl2
        have := Tokens.cons h1 h2 (Or.inr (k2 hp2)) k1
        simpa using this

/-- **C153 (partial).** Without pre/post-processing, if the translation of the engine contains the text of the
user (all its words but the last, and a word that begins with the last one, or equals it if the text ends
with a blank), the suggestion is the text of the user continued so that its words are exactly the words of
the translation; otherwise the suggestion is the text of the user.  Missing: a text that ends with a blank
although its last word is only the beginning of a word of the translation (`C153_counterexample`). -/
theorem C153_words_partial (t p : Str) (hp : '\t' ∉ p) (ht : '\t' ∉ t) :
    (isPrefixStrVec (stringToStringVector p) (stringToStringVector t) = true →
      (p.getLast? = some ' ' → stringToStringVector p <+: stringToStringVector t) →
      p <+: robustMerge t p ∧ stringToStringVector (robustMerge t p) = stringToStringVector t) ∧
    (isPrefixStrVec (stringToStringVector p) (stringToStringVector t) = false → robustMerge t p = p) := by
  constructor
  · intro h1 h2
    refine ⟨robustMerge_begins hp ht, ?_⟩
    have e : robustMerge t p = mergeLoop p t := by
      unfold robustMerge; rw [h1]; rfl
    rw [e]
    exact (C15_tokens _).unique (merge_tokens (C15_tokens p) (C15_tokens t) hp ht h1 h2).1
  · intro h
    unfold robustMerge; rw [h]; rfl

/-- The text `ab ` and the translation `abc` give `ab c`. -/
theorem C153_counterexample : ¬ C153_full := by
  intro h
  have h1 : stringToStringVector "ab ".toList = ["ab".toList] :=
    (C15_tokens _).unique (Tokens.cons (b := []) (t := "ab".toList) (rest := [' ']) (by simp [Blanks])
      ⟨by decide, by decide⟩ (Or.inr ⟨' ', [], rfl, rfl⟩) (.nil (by simp [Blanks, isBlank])))
  have h2 : stringToStringVector "abc".toList = ["abc".toList] :=
    C15_roundtrip ["abc".toList] (by decide)
  have h3 : stringToStringVector "ab c".toList = ["ab".toList, "c".toList] :=
    C15_roundtrip ["ab".toList, "c".toList] (by decide)
  have h0 : isPrefixStrVec (stringToStringVector "ab ".toList) (stringToStringVector "abc".toList) = true := by
    rw [h1, h2]; decide
  have := h "abc".toList "ab ".toList (by decide) (by decide) h0
  have e : robustMerge "abc".toList "ab ".toList = "ab c".toList := by
    unfold robustMerge; rw [h0]; decide
  rw [e, h2, h3] at this
  revert this
  decide

example : robustMerge "the house is".toList "the  hou".toList = "the  house is".toList := by decide +kernel

/-! ## C154: completion of the last word -/

/-- The words before the last one that the predictor sees: the previous two. -/
def lastTwo (ws : List Str) : List Str := ws.dropLast.drop (ws.dropLast.length - 2)

theorem predHist_eq (ws : List Str) : predHist ws = lastTwo ws := by
  unfold predHist lastTwo
  rcases Nat.lt_or_ge ws.length 2 with h | h
  · rw [if_neg (by omega), if_neg (by omega)]
    have : ws.dropLast = [] := by
      rw [← List.length_eq_zero_iff, List.length_dropLast]; omega
    rw [this]; rfl
  · rw [if_pos h]
    rcases Nat.lt_or_ge ws.length 3 with h3 | h3
    · rw [if_neg (by omega)]
      match ws, h, h3 with
      | [a, b], _, _ => rfl
    · rw [if_pos h3]
      obtain ⟨v, a, b, c, rfl⟩ : ∃ v a b c, ws = v ++ [a, b, c] := by
        have e := (List.take_append_drop (ws.length - 3) ws).symm
        have hl : (ws.drop (ws.length - 3)).length = 3 := by rw [List.length_drop]; omega
        obtain ⟨a, b, c, h3⟩ : ∃ a b c, ws.drop (ws.length - 3) = [a, b, c] := by
          generalize ws.drop (ws.length - 3) = d at hl
          match d, hl with
          | [a, b, c], _ => exact ⟨a, b, c, rfl⟩
        exact ⟨ws.take (ws.length - 3), a, b, c, by rw [h3] at e; exact e⟩
      have e1 : (v ++ [a, b, c])[(v ++ [a, b, c]).length - 3]? = some a := by simp
      have e2 : (v ++ [a, b, c])[(v ++ [a, b, c]).length - 2]? = some b := by
        rw [List.length_append, List.length_cons, List.length_cons, List.length_singleton,
          List.getElem?_append_right (by omega)]
        have : v.length + (1 + 1 + 1) - 2 - v.length = 1 := by omega
        rw [this]; rfl
      rw [e1, e2]
      have e3 : (v ++ [a, b, c]).dropLast = v ++ [a, b] := by
        rw [show v ++ [a, b, c] = (v ++ [a, b]) ++ [c] by simp, List.dropLast_concat]
      rw [e3]
      simp

/-- **C154.** Completing the last word of a text: nothing changes if the text is empty, ends with a blank or
has a last word of one character; otherwise the text is followed by what the word predictor proposes for the
last word and the two words before it, and by a blank if that is not empty.  The answer is the completed
last word. -/
theorem C154_expand_last_word (suf : List Str → Str → Str) (s w : Str) (hw : LastWord s w) :
    expandLastWord suf s =
      if w.length ≤ 1 then (w, s)
      else if suf (lastTwo (stringToStringVector s)) w = [] then (w, s)
      else (w ++ suf (lastTwo (stringToStringVector s)) w, s ++ suf (lastTwo (stringToStringVector s)) w ++ [' ']) := by
  have e := (lastPartial_spec s).unique hw
  unfold expandLastWord
  rw [e, predHist_eq]
  by_cases hs : s.length > 0
  · rw [if_pos hs]
    by_cases hl : s.getLast? = some ' '
    · rw [if_pos hl]
      have hw0 : w = [] := by
        obtain ⟨h1, u, h2, -⟩ := hw
        cases w with
        | nil => rfl
        | cons c w =>
          exfalso
          rw [h2, List.getLast?_append, List.getLast?_eq_some_getLast (l := c :: w) (by simp), Option.some_or,
            Option.some.injEq] at hl
          apply h1
          rw [← hl]
          exact List.getLast_mem _
      rw [hw0, if_pos (by simp)]
    · rw [if_neg hl]
      split
      · rfl
      · by_cases hsuf : suf (lastTwo (stringToStringVector s)) w = []
        · rw [if_pos hsuf, hsuf]; simp
        · rw [if_neg hsuf, if_pos (List.length_pos_iff.2 hsuf)]
  · have hs0 : s = [] := by simpa using hs
    have hw0 : w = [] := by
      obtain ⟨-, u, h2, -⟩ := hw
      rw [hs0] at h2
      exact (List.append_eq_nil_iff.1 h2.symm).2
    rw [if_neg hs, hw0, if_pos (by simp)]

/-- Every text has a last word. -/
theorem C154_last_word_exists (s : Str) : ∃ w, LastWord s w := ⟨_, lastPartial_spec s⟩

example : LastWord "the green hou".toList "hou".toList := ⟨by decide, "the green ".toList, rfl, Or.inr rfl⟩

end Thot.Cat
