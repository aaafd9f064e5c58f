import Verif.ImtSes.Model
import Verif.WgProc.CorrProps
/-!
Claims C244–C246 on interactive sessions with rejections.
-/
namespace Thot.ImtSes

open Thot.StrProc
open Thot.Cat (Sys St)
open Thot.WgProc (Begins Respects)

/-! ### Specification -/

/-- What a call rejects: the word that follows the prefix, or the end of the incomplete last word. -/
def rejects : Call → Option (Str × Str)
  | .setPrefix _ _ _ => none
  | .reject pre suf true => some (pre.getLast?.getD [], suf.head?.getD [])
  | .reject _ suf false => match suf with
    | [] => none
    | w :: _ => if w = [] then none else some ([], w)

def Call.isReject : Call → Prop
  | .setPrefix _ _ _ => False
  | .reject _ _ _ => True

/-- `r` was rejected by one of the last calls, all of them rejections for the text of the last call `c` (`same`). -/
def Rejected (same : Call → Call → Prop) (h : List Call) (c : Call) (r : Str × Str) : Prop :=
  ∃ h1 h2, h ++ [c] = h1 ++ h2 ∧ (∀ d ∈ h2, d.isReject ∧ same d c) ∧ ∃ d ∈ h2, rejects d = some r

/-- Two calls with the same words in the prefix. -/
def samePrefix (d c : Call) : Prop := d.pre = c.pre
/-- Two calls for the same text: the last word is complete in both or in none. -/
def sameText (d c : Call) : Prop := d.pre = c.pre ∧ d.part = c.part

/-- The prefix sent to the decoder for a call. -/
def sent : Call → List Str
  | .setPrefix p _ _ => p
  | .reject p _ true => p.dropLast
  | .reject p _ false => p

/-- A word: characters other than blanks. -/
def Clean (w : Str) : Prop := w ≠ [] ∧ ∀ c ∈ w, c ≠ ' ' ∧ c ≠ '\t'

/-- `out` begins with the words of the prefix; an incomplete last word may go on. -/
def KeepsPrefix (pre : List Str) (part : Bool) (out : List Str) : Prop :=
  if part then pre = [] ∨ ∃ v l w, pre = v ++ [l] ∧ l <+: w ∧ v ++ [w] <+: out else pre <+: out

section
variable {Wg PS : Type} (S : Sys Wg Rej PS)

/-! ### Lemmas -/

theorem mem_insertRej {x y : Str × Str} {l : Rej} : y ∈ insertRej x l ↔ y = x ∨ y ∈ l := by
  unfold insertRej
  split
  · constructor
    · exact Or.inr
    · rintro (rfl | h)
      · assumption
      · exact h
  · exact List.mem_cons

theorem runCalls_append (ses : Ses Wg PS) (h : List Call) (c : Call) :
    runCalls S ses (h ++ [c]) = (runCalls S ses h).bind fun s => (call S s c).map Prod.snd := by
  induction h generalizing ses with
  | nil =>
    show (call S ses c).bind (fun x => some x.2) = (call S ses c).map Prod.snd
    cases call S ses c <;> rfl
  | cons d h ih =>
    show (call S ses d).bind (fun x => runCalls S x.2 (h ++ [c])) = ((call S ses d).bind fun x => runCalls S x.2 h).bind _
    cases call S ses d with
    | none => rfl
    | some x => exact ih x.2

/-- The last call and the calls before it. -/
theorem rejected_snoc {same : Call → Call → Prop} (hrefl : ∀ c, same c c) (htrans : ∀ a b c, same a b → same b c → same a c)
    (hsymm : ∀ a b, same a b → same b a) (h : List Call) (c d : Call) (r : Str × Str) :
    Rejected same (h ++ [c]) d r ↔ d.isReject ∧ (rejects d = some r ∨ (same c d ∧ Rejected same h c r)) := by
  constructor
  · rintro ⟨h1, h2, he, hall, x, hx, hr⟩
    rcases List.eq_nil_or_concat h2 with rfl | ⟨t, y, hy⟩
    · cases hx
    · rw [List.concat_eq_append] at hy
      subst hy
      rw [← List.append_assoc] at he
      obtain ⟨e1, e2⟩ := List.append_inj' he rfl
      cases e2
      refine ⟨(hall d (by simp)).1, ?_⟩
      rcases List.mem_append.1 hx with hx | hx
      · right
        rcases List.eq_nil_or_concat t with rfl | ⟨t', z, hz⟩
        · cases hx
        · rw [List.concat_eq_append] at hz
          subst hz
          have e1' := e1
          rw [← List.append_assoc] at e1'
          obtain ⟨-, e3⟩ := List.append_inj' e1' rfl
          cases e3
          have hcd := (hall c (by simp)).2
          refine ⟨hcd, h1, t' ++ [c], e1, ?_, x, hx, hr⟩
          intro y hy
          have := hall y (List.mem_append.2 (Or.inl hy))
          exact ⟨this.1, htrans _ _ _ this.2 (hsymm _ _ hcd)⟩
      · rw [List.mem_singleton] at hx
        subst hx
        exact Or.inl hr
  · rintro ⟨hd, hr | ⟨hcd, h1, h2, he, hall, x, hx, hr⟩⟩
    · exact ⟨h ++ [c], [d], by simp, by simpa using ⟨hd, hrefl d⟩, d, by simp, hr⟩
    · refine ⟨h1, h2 ++ [d], by rw [he, List.append_assoc], ?_, x, by simp [hx], hr⟩
      intro y hy
      rcases List.mem_append.1 hy with hy | hy
      · exact ⟨(hall y hy).1, htrans _ _ _ (hall y hy).2 hcd⟩
      · rw [List.mem_singleton] at hy
        subst hy
        exact ⟨hd, hrefl y⟩

theorem rejected_first {same : Call → Call → Prop} (hrefl : ∀ c, same c c) (d : Call) (r : Str × Str) :
    Rejected same [] d r ↔ d.isReject ∧ rejects d = some r := by
  constructor
  · rintro ⟨h1, h2, he, hall, x, hx, hr⟩
    have hm : x ∈ [] ++ [d] := by rw [he]; simp [hx]
    simp only [List.nil_append, List.mem_singleton] at hm
    subst hm
    exact ⟨(hall x hx).1, hr⟩
  · rintro ⟨hd, hr⟩
    exact ⟨[], [d], by simp, by simpa using ⟨hd, hrefl d⟩, d, by simp, hr⟩

/-- The set a call gives to the decoder. -/
def newRej (ses : Ses Wg PS) : Call → Rej
  | .setPrefix _ _ _ => []
  | .reject pre suf true => rejectPart (revise ses pre) pre suf
  | .reject pre suf false => rejectWord (revise ses pre) suf

theorem call_eq (ses : Ses Wg PS) (c : Call) : call S ses c =
    (setPrefixAux S ses.cat (sent c) c.part (newRej ses c)).map fun r => (r.1, { cat := r.2, prev := c.pre, rej := newRej ses c }) := by
  cases c with
  | setPrefix p s b => rfl
  | reject p s b => cases b <;> rfl

theorem mem_newRej (ses : Ses Wg PS) (c : Call) (r : Str × Str) :
    r ∈ newRej ses c ↔ c.isReject ∧ (rejects c = some r ∨ (ses.prev = c.pre ∧ r ∈ ses.rej)) := by
  have hrev : ∀ pre, (r ∈ revise ses pre ↔ ses.prev = pre ∧ r ∈ ses.rej) := by
    intro pre
    unfold revise
    split <;> rename_i hp
    · simp [hp]
    · rw [Decidable.not_not] at hp
      simp [hp]
  cases c with
  | setPrefix p s b => simp [newRej, Call.isReject]
  | reject p s b =>
    cases b with
    | true =>
      show r ∈ insertRej _ _ ↔ _
      rw [mem_insertRej, hrev]
      simp only [Call.isReject, rejects, true_and, Call.pre, Option.some.injEq]
      constructor
      · rintro (h | h)
        · exact Or.inl h.symm
        · exact Or.inr h
      · rintro (h | h)
        · exact Or.inl h.symm
        · exact Or.inr h
    | false =>
      show r ∈ rejectWord _ _ ↔ _
      cases s with
      | nil => simp [rejectWord, rejects, Call.isReject, Call.pre, hrev]
      | cons w s =>
        by_cases hw : w = []
        · simp [rejectWord, rejects, Call.isReject, Call.pre, hrev, hw]
        · have e : rejectWord (revise ses p) (w :: s) = insertRej ([], w) (revise ses p) := by
            show (if w ≠ [] then _ else _) = _
            rw [if_pos hw]
          rw [e, mem_insertRej, hrev]
          have e2 : rejects (.reject p (w :: s) false) = some ([], w) := by
            show (if w = [] then none else some ([], w)) = _
            rw [if_neg hw]
          rw [e2]
          simp only [Call.isReject, true_and, Call.pre, Option.some.injEq]
          constructor
          · rintro (h | h)
            · exact Or.inl h.symm
            · exact Or.inr h
          · rintro (h | h)
            · exact Or.inl h.symm
            · exact Or.inr h

theorem ses_after (cat : St Wg PS) (src : List Str) (h : List Call) (c : Call) : ∀ ses, runCalls S (start S cat src) (h ++ [c]) = some ses →
    ses.prev = c.pre ∧ ∀ r, r ∈ ses.rej ↔ Rejected samePrefix h c r := by
  have hr : ∀ c, samePrefix c c := fun _ => rfl
  induction h using Cat.list_snoc_ind generalizing c with
  | h0 =>
    intro ses hs
    rw [runCalls_append] at hs
    obtain ⟨s0, h0, h1⟩ := Option.bind_eq_some_iff.1 hs
    cases h0
    rw [call_eq] at h1
    obtain ⟨x, hx, rfl⟩ := Option.map_eq_some_iff.1 h1
    obtain ⟨y, -, rfl⟩ := Option.map_eq_some_iff.1 hx
    refine ⟨rfl, fun r => ?_⟩
    rw [rejected_first hr]
    show r ∈ newRej _ c ↔ _
    rw [mem_newRej]
    simp [start]
  | h1 h b ih =>
    intro ses hs
    rw [runCalls_append] at hs
    obtain ⟨s0, h0, h1⟩ := Option.bind_eq_some_iff.1 hs
    obtain ⟨i1, i2⟩ := ih b s0 h0
    rw [call_eq] at h1
    obtain ⟨x, hx, rfl⟩ := Option.map_eq_some_iff.1 h1
    obtain ⟨y, -, rfl⟩ := Option.map_eq_some_iff.1 hx
    refine ⟨rfl, fun r => ?_⟩
    rw [rejected_snoc hr (fun a b c h1 h2 => Eq.trans h1 h2) (fun a b h => Eq.symm h)]
    show r ∈ newRej _ c ↔ _
    rw [mem_newRej, i1, i2]
    rfl

/-! ### C244 -/

/-- The state before a call made after the calls `h`, and the set of rejected words the call gives to the decoder. -/
theorem newRej_spec (cat : St Wg PS) (src : List Str) (h : List Call) (c : Call) (ses : Ses Wg PS)
    (hs : runCalls S (start S cat src) h = some ses) (r : Str × Str) : r ∈ newRej ses c ↔ Rejected samePrefix h c r := by
  have hr : ∀ c, samePrefix c c := fun _ => rfl
  rw [mem_newRej]
  rcases List.eq_nil_or_concat h with rfl | ⟨h', b, hb⟩
  · cases hs
    rw [rejected_first hr]
    simp [start]
  · rw [List.concat_eq_append] at hb
    subst hb
    obtain ⟨i1, i2⟩ := ses_after S cat src h' b ses hs
    rw [rejected_snoc hr (fun a b c h1 h2 => Eq.trans h1 h2) (fun a b h => Eq.symm h), i1, i2]
    rfl

/-- Every call completes the text of the call with the words rejected by the last calls, as long as they are rejections for the same words
of the prefix; `setPrefix` starts again without rejected words. Missing: a change of `last_token_is_partial` alone changes the text, but
the words rejected for the other text are still used (`C244_counterexample`). -/
theorem C244_rejected_set_partial (cat : St Wg PS) (src : List Str) (h : List Call) (c : Call) (ses : Ses Wg PS)
    (hs : runCalls S (start S cat src) h = some ses) :
    ∃ rej, (∀ r, r ∈ rej ↔ Rejected samePrefix h c r) ∧
      (call S ses c).map Prod.fst = (Cat.setPref S ses.cat (text (sent c) c.part) rej).map fun x => stringToStringVector x.1 := by
  refine ⟨newRej ses c, newRej_spec S cat src h c ses hs, ?_⟩
  rw [call_eq]
  unfold setPrefixAux
  cases Cat.setPref S ses.cat (text (sent c) c.part) (newRej ses c) <;> rfl

end

/-- The full claim: only words rejected for the same text. -/
def C244_full : Prop := ∀ (Wg PS : Type) (S : Sys Wg Rej PS) (cat : St Wg PS) (src : List Str) (h : List Call) (c : Call) (ses : Ses Wg PS),
  runCalls S (start S cat src) h = some ses →
    ∃ rej, (∀ r, r ∈ rej ↔ Rejected sameText h c r) ∧
      (call S ses c).map Prod.fst = (Cat.setPref S ses.cat (text (sent c) c.part) rej).map fun x => stringToStringVector x.1

/-- An engine whose suggestion shows whether `ho` has been accepted as the beginning of a word. -/
def spy : Sys Unit Rej Unit where
  wgFor _ := ((), true)
  correct _ _ rej := if (['h', 'o'], ['u']) ∈ rej then [[['h', 'o'], ['x']]] else [[['h', 'o'], ['y']]]
  noRej := []
  suffix _ _ := []
  preproc := false
  pre _ s _ := (s, ())
  post _ s := s
  isCategory _ := false

def c1 : Call := .reject [['h', 'o']] [['u']] true
def c2 : Call := .reject [['h', 'o']] [['y']] false

/-- The user rejects `hou` and then accepts the word `ho` and rejects `y` after it: the engine is still told to look for a word that
begins with `ho`. -/
theorem C244_counterexample : ¬ C244_full := by
  intro h
  have hs : ∃ ses, runCalls spy (start spy ⟨none, [], [], ()⟩ []) [c1] = some ses := ⟨_, rfl⟩
  obtain ⟨ses, hs⟩ := hs
  obtain ⟨rej, h1, h2⟩ := h Unit Unit spy ⟨none, [], [], ()⟩ [] [c1] c2 ses hs
  have hn : (['h', 'o'], ['u']) ∉ rej := by
    rw [h1]
    have := rejected_snoc (same := sameText) (fun _ => ⟨rfl, rfl⟩) (fun a b c h1 h2 => ⟨h1.1.trans h2.1, h1.2.trans h2.2⟩)
      (fun a b h => ⟨h.1.symm, h.2.symm⟩) [] c1 c2 (['h', 'o'], ['u'])
    rw [List.nil_append] at this
    rw [this]
    rintro ⟨-, h | ⟨⟨-, h⟩, -⟩⟩
    · revert h; decide
    · revert h; decide
  obtain ⟨rej', h1', h2'⟩ := C244_rejected_set_partial spy ⟨none, [], [], ()⟩ [] [c1] c2 ses hs
  have hn' : (['h', 'o'], ['u']) ∈ rej' := by
    rw [h1']
    have := rejected_snoc (same := samePrefix) (fun _ => rfl) (fun a b c h1 h2 => Eq.trans h1 h2)
      (fun a b h => Eq.symm h) [] c1 c2 (['h', 'o'], ['u'])
    rw [List.nil_append] at this
    rw [this]
    refine ⟨trivial, Or.inr ⟨rfl, ?_⟩⟩
    rw [rejected_first (same := samePrefix) (fun _ => rfl)]
    exact ⟨trivial, rfl⟩
  have key : ∀ R : Rej, (Cat.setPref spy ses.cat (text (sent c2) c2.part) R).map (fun x => stringToStringVector x.1) =
      (Cat.setPref spy ses.cat (text (sent c2) c2.part) (if (['h', 'o'], ['u']) ∈ R then [(['h', 'o'], ['u'])] else [])).map
        fun x => stringToStringVector x.1 := by
    intro R
    by_cases hR : (['h', 'o'], ['u']) ∈ R <;> simp [hR, Cat.setPref, Cat.addStrAux, Cat.atAddStr, spy]
  rw [h2', key rej', key rej, if_pos hn', if_neg hn] at h2
  have hc : ses.cat = ⟨some (), [], [], ()⟩ := by
    have : runCalls spy (start spy ⟨none, [], [], ()⟩ []) [c1] = some ⟨⟨some (), [], [], ()⟩, [['h', 'o']], [(['h', 'o'], ['u'])]⟩ := by rfl
    rw [this] at hs
    cases hs
    rfl
  rw [hc] at h2
  revert h2
  decide +kernel

/-! ### Words of a text -/

theorem isWord_clean {w : Str} (h : Clean w) : IsWord w := by
  refine ⟨h.1, fun c hc => ?_⟩
  rw [Bool.eq_false_iff, ne_eq, isBlank_iff]
  exact fun hh => hh.elim (h.2 c hc).1 (h.2 c hc).2

theorem join_cons (w : Str) (v : Str) (ws : List Str) : stringVectorToString (w :: v :: ws) = w ++ ' ' :: stringVectorToString (v :: ws) := by
  show joinLoop (w ++ ' ' :: v) ws = w ++ ' ' :: joinLoop v ws
  rw [joinLoop_acc, joinLoop_acc v]
  simp

/-- The words of a text that begins with complete words. -/
theorem tokens_words : ∀ (ws : List Str) (_ : ∀ w ∈ ws, Clean w) (z : Str) (ts : List Str), Tokens z ts → (ws = [] ∨ ∃ c r, z = c :: r ∧ isBlank c = true) →
    Tokens (stringVectorToString ws ++ z) (ws ++ ts) := by
  intro ws
  induction ws with
  | nil => intro _ z ts h _; exact h
  | cons w ws ih =>
    intro hc z ts h hz
    have hz' : ∃ c r, z = c :: r ∧ isBlank c = true := by
      rcases hz with h0 | h0
      · cases h0
      · exact h0
    cases ws with
    | nil =>
      have := Tokens.cons (b := []) (t := w) (rest := z) (by simp [Blanks]) (isWord_clean (hc w (by simp))) (Or.inr hz') h
      simpa [stringVectorToString, joinLoop] using this
    | cons v ws =>
      have h1 := ih (fun x hx => hc x (List.mem_cons_of_mem _ hx)) z ts h (Or.inr hz')
      have h2 := h1.blanks (b := [' ']) (by simp [Blanks, isBlank])
      have h3 := Tokens.cons (b := []) (t := w) (rest := [' '] ++ (stringVectorToString (v :: ws) ++ z)) (by simp [Blanks])
        (isWord_clean (hc w (by simp))) (Or.inr ⟨' ', _, rfl, rfl⟩) h2
      rw [join_cons]
      simpa using h3

/-- A word that may go on. -/
theorem tokens_goes_on {l : Str} (hl : Clean l) (z : Str) : ∃ w ts, l <+: w ∧ stringToStringVector (l ++ z) = w :: ts := by
  have h := C15_tokens (l ++ z)
  revert h
  generalize stringToStringVector (l ++ z) = ts
  intro h
  generalize hs : l ++ z = s at h
  obtain ⟨a, l', rfl⟩ : ∃ a l', l = a :: l' := by
    cases l with
    | nil => exact absurd rfl hl.1
    | cons a l' => exact ⟨a, l', rfl⟩
  have hna : ∀ c ∈ a :: l', isBlank c = false := (isWord_clean hl).2
  cases h with
  | nil hb =>
    have := hb a (by rw [← hs]; simp)
    rw [hna a (by simp)] at this
    cases this
  | @cons b t rest ts h1 h2 h3 h4 =>
    refine ⟨t, ts, ?_, rfl⟩
    have hb0 : b = [] := by
      cases b with
      | nil => rfl
      | cons x b =>
        have e : x = a := by
          have := congrArg List.head? hs
          simpa using this.symm
        have := h1 x (by simp)
        rw [e, hna a (by simp)] at this
        cases this
    subst hb0
    rw [List.nil_append] at hs
    have hp1 : (a :: l') <+: t ++ rest := ⟨z, hs⟩
    have hp2 : t <+: t ++ rest := List.prefix_append _ _
    rcases List.prefix_or_prefix_of_prefix hp1 hp2 with h | h
    · exact h
    · obtain ⟨q, hq⟩ := h
      rcases h3 with rfl | ⟨c, r, rfl, hcb⟩
      · rw [List.append_nil] at hp1
        exact hp1
      · cases q with
        | nil => rw [List.append_nil] at hq; rw [hq]; exact List.prefix_rfl
        | cons x q =>
          exfalso
          have hx : x = c := by
            rw [← hq] at hs
            rw [List.append_assoc] at hs
            have := List.append_cancel_left hs
            injection this
          have := hna x (by rw [← hq]; simp)
          rw [hx, hcb] at this
          cases this

theorem words_goes_on {v : List Str} {l : Str} (hv : ∀ w ∈ v, Clean w) (hl : Clean l) (z : Str) :
    ∃ w ts, l <+: w ∧ stringToStringVector (stringVectorToString (v ++ [l]) ++ z) = v ++ w :: ts := by
  obtain ⟨w, ts, h1, h2⟩ := tokens_goes_on hl z
  refine ⟨w, ts, h1, ?_⟩
  cases v with
  | nil => exact h2
  | cons u v =>
    have h3 := (C15_tokens (l ++ z)).blanks (b := [' ']) (by simp [Blanks, isBlank])
    rw [h2] at h3
    have h4 := tokens_words (u :: v) hv _ _ h3 (Or.inr ⟨' ', l ++ z, rfl, rfl⟩)
    have e : stringVectorToString (u :: v ++ [l]) ++ z = stringVectorToString (u :: v) ++ ([' '] ++ (l ++ z)) := by
      clear h4 h3 h2 hv
      induction v generalizing u with
      | nil => simp [stringVectorToString, joinLoop]
      | cons x v ih =>
        have := ih x
        simp only [List.cons_append] at this ⊢
        rw [join_cons, join_cons]
        simp only [List.append_assoc, List.cons_append] at this ⊢
        rw [this]
    rw [e]
    exact (C15_tokens _).unique h4

/-- The words of a completed text. -/
theorem words_of_text {pre : List Str} {part : Bool} (hp : ∀ w ∈ pre, Clean w) {a : Str} (h : text pre part <+: a) :
    KeepsPrefix pre part (stringToStringVector a) := by
  obtain ⟨z, rfl⟩ := h
  unfold KeepsPrefix text
  cases part with
  | true =>
    rw [if_pos rfl, if_pos rfl]
    rcases List.eq_nil_or_concat pre with rfl | ⟨v, l, hvl⟩
    · exact Or.inl rfl
    · rw [List.concat_eq_append] at hvl
      subst hvl
      obtain ⟨w, ts, h1, h2⟩ := words_goes_on (v := v) (l := l) (fun w hw => hp w (by simp [hw])) (hp l (by simp)) z
      exact Or.inr ⟨v, l, w, rfl, h1, by rw [h2]; exact ⟨ts, by simp⟩⟩
  | false =>
    rw [if_neg (by simp), if_neg (by simp), List.append_assoc]
    have h3 := (C15_tokens z).blanks (b := [' ']) (by simp [Blanks, isBlank])
    have h4 := tokens_words pre hp _ _ h3 (Or.inr ⟨' ', z, rfl, rfl⟩)
    rw [(C15_tokens _).unique h4]
    exact List.prefix_append _ _

theorem clean_noTab {pre : List Str} (hp : ∀ w ∈ pre, Clean w) (part : Bool) : Cat.NoTab (text pre part) := by
  have h := Cat.join_noTab (ws := pre) (fun w hw hc => ((hp w hw).2 _ hc).2 rfl)
  unfold text
  cases part with
  | true => exact h
  | false =>
    rw [if_neg (by simp)]
    intro hc
    rcases List.mem_append.1 hc with hc | hc
    · exact h hc
    · simp at hc

/-! ### C245 -/

section
variable {Wg PS : Type} (S : Sys Wg Rej PS)

theorem sent_kept (ses : Ses Wg PS) (c : Call) (hp : ∀ w ∈ sent c, Clean w) (ht : S.preproc = true ∨ Cat.NoTabs S)
    {out : List Str} {ses' : Ses Wg PS} (h : call S ses c = some (out, ses')) : KeepsPrefix (sent c) c.part out := by
  rw [call_eq] at h
  obtain ⟨x, hx, he⟩ := Option.map_eq_some_iff.1 h
  obtain ⟨y, hy, rfl⟩ := Option.map_eq_some_iff.1 hx
  cases he
  apply words_of_text hp
  have hs : Cat.step S ses.cat (.setPref (text (sent c) c.part) (newRej ses c)) = some (some y.1, y.2) := by
    show (Cat.setPref S ses.cat _ _).map _ = _
    rw [hy]; rfl
  exact Cat.step_begins S hs trivial (ht.imp_right fun h => ⟨h, clean_noTab hp _⟩)

/-- The answer of `setPrefix`, and of `rejectSuffix` after a complete word, begins with the words of the prefix; the last one may go on if it
is incomplete. Missing: the rejection of the end of an incomplete word (`C245_counterexample`), after which only the words before the last
but one are kept, and the word before the incomplete one may go on. -/
theorem C245_keeps_prefix_partial (ses : Ses Wg PS) (c : Call) (hp : ∀ w ∈ c.pre, Clean w) (ht : S.preproc = true ∨ Cat.NoTabs S)
    {out : List Str} {ses' : Ses Wg PS} (h : call S ses c = some (out, ses')) :
    (c.isReject → c.part = false) → KeepsPrefix c.pre c.part out := by
  intro hr
  have e : sent c = c.pre := by
    cases c with
    | setPrefix p s b => rfl
    | reject p s b =>
      have : b = false := hr trivial
      subst this
      rfl
  have := sent_kept S ses c (by rw [e]; exact hp) ht h
  rwa [e] at this

/-- The words that are kept after rejecting the end of an incomplete word. -/
theorem C245_partial_word_partial (ses : Ses Wg PS) (pre suf : List Str) (hp : ∀ w ∈ pre, Clean w) (ht : S.preproc = true ∨ Cat.NoTabs S)
    {out : List Str} {ses' : Ses Wg PS} (h : call S ses (.reject pre suf true) = some (out, ses')) :
    KeepsPrefix pre.dropLast true out :=
  sent_kept S ses (.reject pre suf true) (fun w hw => hp w (List.dropLast_subset pre hw)) ht h

end

/-- The suggestions of the engine complete the text it gets, and the word after the text respects the rejected words (C137, C141). -/
def EngineOk {Wg PS : Type} (S : Sys Wg Rej PS) : Prop :=
  ∀ g p rej c, c ∈ S.correct (some g) p rej → stringToStringVector p ≠ [] →
    (∃ b, Begins p b ∧ b <+: c) ∧ ∀ w, c[(stringToStringVector p).length]? = some w → Respects rej w

/-- The full claim: every answer begins with the words of the prefix, for every such engine. -/
def C245_full : Prop := ∀ (Wg PS : Type) (S : Sys Wg Rej PS), EngineOk S → (S.preproc = true ∨ Cat.NoTabs S) →
  ∀ (cat : St Wg PS) (src : List Str) (h : List Call) (c : Call) (ses ses' : Ses Wg PS) (out : List Str),
    runCalls S (start S cat src) h = some ses → (∀ w ∈ c.pre, Clean w) → call S ses c = some (out, ses') → KeepsPrefix c.pre c.part out

def abHouse : Rej := [(['h', 'o'], ['u', 's', 'e'])]

/-- An engine that knows `abc hok`. -/
def abc : Sys Unit Rej Unit where
  wgFor _ := ((), true)
  correct _ p rej := if p = ['a', 'b'] ∧ rej = abHouse then [[['a', 'b', 'c'], ['h', 'o', 'k']]] else [stringToStringVector p]
  noRej := []
  suffix _ _ := []
  preproc := false
  pre _ s _ := (s, ())
  post _ s := s
  isCategory _ := false

theorem words_ab : stringToStringVector ['a', 'b'] = [['a', 'b']] := C15_roundtrip [['a', 'b']] (by decide)

theorem abc_ok : EngineOk abc := by
  intro g p rej c hc hne
  by_cases h : p = ['a', 'b'] ∧ rej = abHouse
  · have e : abc.correct (some g) p rej = [[['a', 'b', 'c'], ['h', 'o', 'k']]] := by
      show (if _ then _ else _) = _
      rw [if_pos h]
    rw [e, List.mem_singleton] at hc
    obtain ⟨rfl, rfl⟩ := h
    subst hc
    refine ⟨⟨[['a', 'b', 'c']], ⟨fun h => absurd h (by decide), fun _ => ⟨[], ['a', 'b'], ['a', 'b', 'c'], words_ab, rfl, by decide⟩⟩, by decide⟩, ?_⟩
    rw [words_ab]
    intro w hw
    have hw' : w = ['h', 'o', 'k'] := by simpa using hw.symm
    subst hw'
    intro r hr
    have : r = (['h', 'o'], ['u', 's', 'e']) := by simpa [abHouse] using hr
    subst this
    exact ⟨by decide, by decide⟩
  · have e : abc.correct (some g) p rej = [stringToStringVector p] := by
      show (if _ then _ else _) = _
      rw [if_neg h]
    rw [e, List.mem_singleton] at hc
    subst hc
    refine ⟨⟨stringToStringVector p, ⟨fun _ => rfl, fun _ => ?_⟩, List.prefix_rfl⟩, ?_⟩
    · rcases List.eq_nil_or_concat (stringToStringVector p) with h0 | ⟨v, l, hvl⟩
      · exact absurd h0 hne
      · rw [List.concat_eq_append] at hvl
        exact ⟨v, l, l, hvl, hvl, List.prefix_rfl⟩
    · intro w hw
      simp at hw

theorem abc_noTabs : Cat.NoTabs abc := by
  refine ⟨?_, fun _ _ => by simp [abc, Cat.NoTab]⟩
  intro g p rej c hc w hw
  have : c = [['a', 'b', 'c'], ['h', 'o', 'k']] ∨ c = stringToStringVector p := by
    have hc' : c ∈ (if p = ['a', 'b'] ∧ rej = abHouse then [[['a', 'b', 'c'], ['h', 'o', 'k']]] else [stringToStringVector p]) := hc
    split at hc'
    · exact Or.inl (List.mem_singleton.1 hc')
    · exact Or.inr (List.mem_singleton.1 hc')
  rcases this with rfl | rfl
  · simp only [List.mem_cons, List.not_mem_nil, or_false] at hw
    rcases hw with rfl | rfl <;> (unfold Cat.NoTab; decide)
  · exact fun h => (((C15_token_facts p).1 w hw).2 _ h).2 rfl

/-- The user has accepted `ab ho` and rejects `use`: the word `ab` is replaced in the suggestion `abc hok`. -/
theorem C245_counterexample : ¬ C245_full := by
  intro h
  have h1 : (call abc (start abc ⟨none, [], [], ()⟩ []) (.reject [['a', 'b'], ['h', 'o']] [['u', 's', 'e']] true)).map Prod.fst =
      some [['a', 'b', 'c'], ['h', 'o', 'k']] := by
    have e : (Cat.setPref abc (start abc ⟨none, [], [], ()⟩ []).cat ['a', 'b'] abHouse).map Prod.fst = some ['a', 'b', 'c', ' ', 'h', 'o', 'k'] := by
      decide +kernel
    have e2 : call abc (start abc ⟨none, [], [], ()⟩ []) (.reject [['a', 'b'], ['h', 'o']] [['u', 's', 'e']] true) =
        ((Cat.setPref abc (start abc ⟨none, [], [], ()⟩ []).cat ['a', 'b'] abHouse).map fun r => (stringToStringVector r.1, r.2)).map fun r =>
          (r.1, ⟨r.2, [['a', 'b'], ['h', 'o']], abHouse⟩) := rfl
    rw [e2]
    obtain ⟨y, hy, hy2⟩ := Option.map_eq_some_iff.1 e
    rw [hy]
    show some (stringToStringVector y.1) = _
    rw [hy2, show ['a', 'b', 'c', ' ', 'h', 'o', 'k'] = stringVectorToString [['a', 'b', 'c'], ['h', 'o', 'k']] from rfl,
      C15_roundtrip [['a', 'b', 'c'], ['h', 'o', 'k']] (by decide)]
  obtain ⟨x, hx, hx1⟩ := Option.map_eq_some_iff.1 h1
  have := h Unit Unit abc abc_ok (Or.inr abc_noTabs) ⟨none, [], [], ()⟩ [] [] _ _ x.2 x.1 rfl (by
    intro w hw
    simp only [Call.pre, List.mem_cons, List.not_mem_nil, or_false] at hw
    rcases hw with rfl | rfl <;> exact ⟨by decide, by decide⟩) hx
  rw [hx1] at this
  rcases this with h0 | ⟨v, l, w, h2, -, h4⟩
  · cases h0
  · have h2' : [['a', 'b']] ++ [['h', 'o']] = v ++ [l] := h2
    obtain ⟨e1, -⟩ := List.append_inj' h2' rfl
    subst e1
    obtain ⟨z, hz⟩ := h4
    simp at hz

/-! ### C246 -/

section
variable {Wg PS : Type} (S : Sys Wg Rej PS)

/-- The engine proposes words. -/
def CleanWords : Prop := (∀ g p rej, ∀ c ∈ S.correct g p rej, ∀ w ∈ c, Clean w) ∧ ∀ h w, ∀ c ∈ S.suffix h w, c ≠ ' ' ∧ c ≠ '\t'

/-- A session has a word graph. -/
theorem linked_some (cat : St Wg PS) (src : List Str) (h : List Call) : ∀ ses, runCalls S (start S cat src) h = some ses → ∃ g, ses.cat.linked = some g := by
  induction h using Cat.list_snoc_ind with
  | h0 =>
    intro ses hs
    cases hs
    unfold start Cat.startCat
    split <;> exact ⟨_, rfl⟩
  | h1 h c ih =>
    intro ses hs
    rw [runCalls_append] at hs
    obtain ⟨s0, h0, h1⟩ := Option.bind_eq_some_iff.1 hs
    obtain ⟨g, hg⟩ := ih s0 h0
    rw [call_eq] at h1
    obtain ⟨x, hx, rfl⟩ := Option.map_eq_some_iff.1 h1
    obtain ⟨y, hy, rfl⟩ := Option.map_eq_some_iff.1 hx
    obtain ⟨z, hz, rfl⟩ := Option.map_eq_some_iff.1 hy
    obtain ⟨st1, s, h2, -, h4, -⟩ := Cat.setPref_eq S s0.cat (text (sent c) c.part) (newRej s0 c)
    rw [h2] at hz
    refine ⟨g, ?_⟩
    show z.2.linked = some g
    unfold Cat.addStrAux at hz
    split at hz
    · obtain ⟨q, -, rfl⟩ := Option.map_eq_some_iff.1 hz
      exact h4.trans hg
    · cases hz
      exact h4.trans hg

/-- The words of the text after completing its last word. -/
theorem expand_words {pre : List Str} (hp : ∀ w ∈ pre, Clean w) (hne : pre ≠ []) (part : Bool) {suf : List Str → Str → Str}
    (hs : ∀ h w, ∀ c ∈ suf h w, c ≠ ' ' ∧ c ≠ '\t') :
    (stringToStringVector (Cat.expandLastWord suf (text pre part)).2).length = pre.length := by
  obtain ⟨v, l, rfl⟩ : ∃ v l, pre = v ++ [l] := by
    rcases List.eq_nil_or_concat pre with h | ⟨v, l, h⟩
    · exact absurd h hne
    · exact ⟨v, l, by rw [h, List.concat_eq_append]⟩
  have hw : stringToStringVector (text (v ++ [l]) part) = v ++ [l] := by
    unfold text
    cases part with
    | true => exact C15_roundtrip _ hp
    | false =>
      rw [if_neg (by simp)]
      have h4 := tokens_words (v ++ [l]) hp [' '] [] (.nil (by simp [Blanks, isBlank])) (Or.inr ⟨' ', [], rfl, rfl⟩)
      rw [List.append_nil] at h4
      exact (C15_tokens _).unique h4
  cases part with
  | false =>
    have e : Cat.expandLastWord suf (text (v ++ [l]) false) = ([], text (v ++ [l]) false) := by
      unfold Cat.expandLastWord
      rw [if_pos (by simp [text]), if_pos (by simp [text])]
    rw [e, hw]
  | true =>
    unfold Cat.expandLastWord
    split
    · split
      · rw [hw]
      · split
        · rw [hw]
        · simp only
          generalize hg : suf (Cat.predHist (stringToStringVector (text (v ++ [l]) true))) (Cat.lastPartial (text (v ++ [l]) true)) = u
          have hu : ∀ c ∈ u, c ≠ ' ' ∧ c ≠ '\t' := by rw [← hg]; exact hs _ _
          have hj : ∀ (v : List Str), stringVectorToString (v ++ [l]) ++ u = stringVectorToString (v ++ [l ++ u]) := by
            intro v
            cases v with
            | nil => rfl
            | cons a v =>
              induction v generalizing a with
              | nil => simp [stringVectorToString, joinLoop]
              | cons b v ih =>
                have := ih b
                simp only [List.cons_append] at this ⊢
                rw [join_cons, join_cons, ← this]
                simp
          have hcl : ∀ w ∈ v ++ [l ++ u], Clean w := by
            intro w hw
            rcases List.mem_append.1 hw with h | h
            · exact hp w (by simp [h])
            · rw [List.mem_singleton] at h
              subst h
              have hl := hp l (by simp)
              refine ⟨by simp [hl.1], fun c hc => ?_⟩
              rcases List.mem_append.1 hc with h | h
              · exact hl.2 c h
              · exact hu c h
          have et : text (v ++ [l]) true ++ u = stringVectorToString (v ++ [l ++ u]) := hj v
          rw [et]
          split
          · have h4 := tokens_words (v ++ [l ++ u]) hcl [' '] [] (.nil (by simp [Blanks, isBlank])) (Or.inr ⟨' ', [], rfl, rfl⟩)
            rw [List.append_nil] at h4
            rw [(C15_tokens _).unique h4]
            simp
          · rw [C15_roundtrip _ hcl]
            simp
    · rw [hw]

/-- The word after the text sent to the decoder respects the rejected words. -/
theorem next_word (hpre : S.preproc = false) (hE : EngineOk S) (hW : CleanWords S) (cat : St Wg PS) (pre : List Str) (part : Bool) (rej : Rej)
    (g : Wg) (hg : cat.linked = some g) (hp : ∀ w ∈ pre, Clean w) (hne : pre ≠ []) {r : Str × St Wg PS}
    (h : Cat.setPref S cat (text pre part) rej = some r) (w : Str) (hw : (stringToStringVector r.1)[pre.length]? = some w) : Respects rej w := by
  obtain ⟨st1, s, h2, h3, h4, -⟩ := Cat.setPref_eq S cat (text pre part) rej
  rw [h2] at h
  unfold Cat.addStrAux at h
  rw [if_neg (by simp [hpre]), Cat.newTotal_eq, h3] at h
  cases h
  have hlen := expand_words hp hne part hW.2
  have hnt : Cat.NoTab (Cat.expandLastWord S.suffix (text pre part)).2 :=
    Cat.expand_noTab (fun h w hc => (hW.2 h w _ hc).2 rfl) (clean_noTab hp part)
  generalize hq : (Cat.expandLastWord S.suffix (text pre part)).2 = q at hw hlen hnt
  have hqne : stringToStringVector q ≠ [] := by
    intro h0
    rw [h0] at hlen
    exact hne (List.length_eq_zero_iff.1 hlen.symm)
  have ea : (Cat.atAddStr S (Cat.atReset { st1 with total := text pre part }) q rej).1 = Cat.bestText (S.correct (some g) q rej) := by
    show Cat.bestText (S.correct st1.linked ([] ++ q) rej) = _
    rw [h4, hg, List.nil_append]
  simp only [ea] at hw
  have hfalse : isPrefixStrVec (stringToStringVector q) (stringToStringVector (Cat.bestText (S.correct (some g) q rej))) = false → Respects rej w := by
    intro hb
    have e : Cat.robustMerge (Cat.bestText (S.correct (some g) q rej)) q = q := by
      unfold Cat.robustMerge
      rw [hb]; rfl
    rw [e, ← hlen] at hw
    simp at hw
  cases hb : isPrefixStrVec (stringToStringVector q) (stringToStringVector (Cat.bestText (S.correct (some g) q rej))) with
  | false => exact hfalse hb
  | true =>
    cases hc : S.correct (some g) q rej with
    | nil =>
      rw [hc] at hb
      rcases (C16_isPrefixStrVec _ _).1 hb with h0 | ⟨i, l, x, t, h5, h6⟩
      · exact absurd h0 hqne
      · rw [show Cat.bestText [] = stringVectorToString [] from rfl, C15_roundtrip [] (by simp)] at h6
        simp at h6
    | cons c cs =>
      rw [hc] at hb hw
      have hm : c ∈ S.correct (some g) q rej := by rw [hc]; simp
      have hcl := hW.1 _ _ _ c hm
      have et : stringToStringVector (Cat.bestText (c :: cs)) = c := C15_roundtrip c hcl
      have hnt2 : Cat.NoTab (Cat.bestText (c :: cs)) := Cat.join_noTab fun w hw hx => ((hcl w hw).2 _ hx).2 rfl
      obtain ⟨⟨b, hbeg, hbc⟩, hres⟩ := hE g q rej c hm hqne
      have := ((Cat.C153_words_partial (Cat.bestText (c :: cs)) q hnt hnt2).1 hb (by
        intro hl
        rw [et, ← hbeg.1 hl]
        exact hbc)).2
      rw [this, et] at hw
      rw [hlen] at hres
      exact hres w hw

/-- Rejected words are not proposed again: with an engine that respects the rejected words (as the word-graph processor does, C141), the word
at the place of the rejected one is different from all the words rejected by the last calls for this prefix, and goes on with what was
accepted of it. (The first word of a text is excluded if it is incomplete, because the decoder then gets an empty prefix.) -/
theorem C246_rejected_not_proposed (hpre : S.preproc = false) (hE : EngineOk S) (hW : CleanWords S) (cat : St Wg PS) (src : List Str)
    (h : List Call) (pre suf : List Str) (part : Bool) (ses ses' : Ses Wg PS) (out : List Str)
    (hs : runCalls S (start S cat src) h = some ses) (hp : ∀ w ∈ pre, Clean w)
    (hl : if part then 2 ≤ pre.length else 1 ≤ pre.length)
    (hc : call S ses (.reject pre suf part) = some (out, ses')) (w : Str)
    (hw : out[if part then pre.length - 1 else pre.length]? = some w) (r : Str × Str)
    (hr : Rejected samePrefix h (.reject pre suf part) r) : w ≠ r.1 ++ r.2 ∧ r.1 <+: w := by
  obtain ⟨g, hg⟩ := linked_some S cat src h ses hs
  rw [call_eq] at hc
  obtain ⟨x, hx, he⟩ := Option.map_eq_some_iff.1 hc
  obtain ⟨y, hy, rfl⟩ := Option.map_eq_some_iff.1 hx
  cases he
  have hlen : (sent (.reject pre suf part)).length = if part then pre.length - 1 else pre.length := by
    cases part <;> simp [sent]
  rw [← hlen] at hw
  have := next_word S hpre hE hW ses.cat (sent (.reject pre suf part)) part (newRej ses (.reject pre suf part)) g hg (by
      intro w hw
      cases part with
      | true => exact hp w (List.dropLast_subset pre hw)
      | false => exact hp w hw) (by
      intro h0
      rw [h0] at hlen
      cases part with
      | true =>
        have hl' : 2 ≤ pre.length := hl
        have : 0 = pre.length - 1 := hlen
        omega
      | false =>
        have hl' : 1 ≤ pre.length := hl
        have : 0 = pre.length := hlen
        omega) hy w hw r ((newRej_spec S cat src h _ ses hs r).2 hr)
  exact ⟨this.2, this.1⟩

end

/-! ### The word-graph processor is such an engine -/

/-- The graphs C141 is about, with words without blanks. -/
def GoodGraph : Type :=
  { g : WordGraph.WG // WordGraph.Topo g ∧ WordGraph.WF g ∧ WordGraph.FinalOk g ∧ WgProc.WordsOk g ∧ ∀ a ∈ g.arcs, ∀ w ∈ a.words, Clean w }

/-- The suggestions of the word-graph processor for a graph that has just been linked (C139: earlier calls do not change them). -/
def wgCorrect (P : WgProc.Par) : Option GoodGraph → Str → Rej → List (List Str)
  | none, _, _ => []
  | some g, p, rej => match WgProc.correct g.1 P p 1 rej none with
    | none => []
    | some r => r.1.map Prod.snd

theorem strip_get {b s : List Str} (hs : ∀ w ∈ s, Clean w) {w : Str} (h : (WgProc.stripLast (b ++ s))[b.length]? = some w) : s.head? = some w := by
  rcases List.eq_nil_or_concat s with rfl | ⟨t, x, hx⟩
  · exfalso
    rw [List.append_nil] at h
    have : (WgProc.stripLast b).length = b.length := by
      unfold WgProc.stripLast
      rcases List.eq_nil_or_concat b with rfl | ⟨t, x, hx⟩
      · rfl
      · rw [List.concat_eq_append] at hx
        subst hx
        simp
    rw [List.getElem?_eq_none (by omega)] at h
    cases h
  · rw [List.concat_eq_append] at hx
    subst hx
    have hx : removeLastBlank x = x := by
      have hcx := hs x (by simp)
      unfold removeLastBlank
      split
      · split
        · rename_i he
          have := hcx.2 ' ' (List.mem_of_getElem? he)
          exact absurd rfl this.1
        · rfl
      · rfl
    have e : WgProc.stripLast (b ++ (t ++ [x])) = b ++ (t ++ [x]) := by
      unfold WgProc.stripLast
      rw [← List.append_assoc]
      simp [hx]
    rw [e, List.getElem?_append_right (Nat.le_refl _), Nat.sub_self] at h
    rw [List.head?_eq_getElem?]
    exact h

theorem path_arcs {g : WordGraph.WG} {a b : Nat} {p : List (Nat × WordGraph.Arc)} (h : WordGraph.Path (WordGraph.Live g) a p b) :
    ∀ e ∈ p, e.2 ∈ g.arcs := by
  induction h with
  | nil => intro e he; cases he
  | cons h1 h2 ih =>
    intro e he
    rcases List.mem_cons.1 he with rfl | he
    · exact List.mem_of_getElem? h1.1
    · exact ih e he

/-- The engine hypothesis of C246 holds for the word-graph processor. -/
theorem C246_engine {PS : Type} (P : WgProc.Par) (hk : P.k.del ≠ 0) (S : Sys GoodGraph Rej PS) (hS : S.correct = wgCorrect P) : EngineOk S := by
  intro g p rej c hc hne
  rw [hS] at hc
  obtain ⟨ht, hw, hf, hg, hcl⟩ := g.2
  unfold wgCorrect at hc
  simp only at hc
  cases h : WgProc.correct g.1 P p 1 rej none with
  | none => rw [h] at hc; cases hc
  | some r =>
    rw [h] at hc
    obtain ⟨e, he, rfl⟩ := List.mem_map.1 hc
    have h' : WgProc.correct g.1 P p 1 rej none = some (r.1, r.2) := h
    refine ⟨(WgProc.C137_corrections_complete_prefix hw hg hk .fresh hne h' e he).1, ?_⟩
    obtain ⟨u, s, t, hsg, hres, -⟩ := WgProc.C141_rejected_words ht hw hf hg hk .fresh hne h' e he
    obtain ⟨path, b, hpath, hwords, hb, hceq⟩ := hsg
    have hlen : b.length = (stringToStringVector p).length := by
      by_cases hl : p.getLast? = some ' '
      · rw [hb.1 hl]
      · obtain ⟨v, l, w, h1, h2, -⟩ := hb.2 hl
        rw [h1, h2]; simp
    intro w hwx
    rw [hceq, ← hlen] at hwx
    apply hres w
    apply strip_get _ hwx
    intro x hx
    have hxw : x ∈ WgProc.words path := by rw [hwords]; simp [hx]
    obtain ⟨a, ha, hxa⟩ := List.mem_flatMap.1 hxw
    exact hcl a.2 (path_arcs hpath a ha) x hxa

/-- Non-vacuity of C246: the engine `abc` proposes `hok` after `house` has been rejected. -/
theorem abc_clean : CleanWords abc := by
  refine ⟨?_, fun _ _ c hc => by cases hc⟩
  intro g p rej c hc w hw
  have : c = [['a', 'b', 'c'], ['h', 'o', 'k']] ∨ c = stringToStringVector p := by
    have hc' : c ∈ (if p = ['a', 'b'] ∧ rej = abHouse then [[['a', 'b', 'c'], ['h', 'o', 'k']]] else [stringToStringVector p]) := hc
    split at hc'
    · exact Or.inl (List.mem_singleton.1 hc')
    · exact Or.inr (List.mem_singleton.1 hc')
  rcases this with rfl | rfl
  · simp only [List.mem_cons, List.not_mem_nil, or_false] at hw
    rcases hw with rfl | rfl <;> exact ⟨by decide, by decide⟩
  · exact (C15_token_facts p).1 w hw

example : abc.preproc = false ∧ EngineOk abc ∧ CleanWords abc ∧ Cat.NoTabs abc ∧
    (call abc (start abc ⟨none, [], [], ()⟩ []) (.reject [['a', 'b'], ['h', 'o']] [['u', 's', 'e']] true)).isSome = true ∧
    Rejected samePrefix [] (.reject [['a', 'b'], ['h', 'o']] [['u', 's', 'e']] true) (['h', 'o'], ['u', 's', 'e']) :=
  ⟨rfl, abc_ok, abc_clean, abc_noTabs, rfl, (rejected_first (same := samePrefix) (fun _ => rfl) (.reject [['a', 'b'], ['h', 'o']] [['u', 's', 'e']] true) _).2 ⟨trivial, rfl⟩⟩

end Thot.ImtSes
