import Verif.Capit.Model
/-!
Properties C308-C312: capitalisation of the translations and restoring of the tables of the pre/post-processors.
-/
namespace Thot.Capit

open Thot Thot.AMap

variable {St : Type}

/-! ### C308 -/

theorem lk_loadOptions (w : String) : ∀ (lines : List (List String)) (m : List (String × List String)),
    lk (loadOptions lines m) w =
      match lk m w with
      | some v => some v
      | none => (lines.find? (fun l => decide (l.head? = some w ∧ 2 < l.length))).map (·.drop 2) := by
  intro lines
  induction lines with
  | nil => intro m; simp only [loadOptions]; cases lk m w <;> simp
  | cons l r ih =>
    intro m
    rw [loadOptions.eq_def]
    dsimp only
    split
    · rename_i x y o os
      by_cases hx : x = w
      · subst hx
        cases hm : lk m x with
        | none => simp only [ih, lk_put]; simp
        | some v => simp only [ih, hm]
      · cases hm : lk m x with
        | none =>
          simp only [ih, lk_put]
          have hx' : ¬ w = x := fun e => hx e.symm
          cases lk m w <;> simp [hx, hx']
        | some v => simp only [ih]; simp [hx]
    · rename_i hn
      rw [ih]
      have : ¬ (2 < l.length) := by
        intro h
        match l, h with
        | a :: b :: c :: d, _ => exact hn a b c d rfl
      simp [this]

/-- **C308.** The capitalisation options of a word are the fields, from the third one on, of the first line of the
file whose first field is the word and that has more than two fields; the word has no options when there is no such
line. -/
theorem C308_options_of_a_word (lines : List (List String)) (w : String) :
    lk (loadOptions lines []) w =
      (lines.find? (fun l => decide (l.head? = some w ∧ 2 < l.length))).map (·.drop 2) := by
  rw [lk_loadOptions]; simp [lk]

example : lk (loadOptions [["the", "2"], ["the", "3", "The", "the"], ["the", "1", "THE"]] []) "the" =
    some ["The", "the"] := by decide +kernel

/-! ### C309 -/

/-- `o` is the word chosen for `w` among `opts`: `w` itself when there are no options, otherwise the first of the
options with the largest score. -/
def Chosen (score : String → Int) (opts : List String) (w o : String) : Prop :=
  (opts = [] ∧ o = w) ∨
  ∃ k, opts[k]? = some o ∧ (∀ o' ∈ opts, score o' ≤ score o) ∧
    ∀ (j : Nat) (o' : String), j < k → opts[j]? = some o' → score o' < score o

/-- The options of `w` in a table. -/
def optionsOf (caps : List (String × List String)) (w : String) : List String := (lk caps w).getD []

/-- The state of the language model after a list of pairs of an input word and its output word: the output words
are read except where the input word is the mark of the end of the prefix. -/
def stateAfter (lm : LM St) (st : St) : List (String × String) → St
  | [] => st
  | p :: r => stateAfter lm (if p.1 = "<END_OF_PREF_MARK>" then st else (lm.step st p.2).2) r

theorem bestLoop_filter (lm : LM St) (st : St) (ok : String → Bool) : ∀ (opts : List String) acc,
    bestLoop lm st ok opts acc = bestLoop lm st (fun _ => true) (opts.filter ok) acc := by
  intro opts
  induction opts with
  | nil => intro acc; rfl
  | cons o r ih =>
    intro acc
    by_cases h : ok o = true
    · simp only [bestLoop, h, List.filter_cons_of_pos, if_true]
      split
      · exact ih _
      · split <;> exact ih _
    · rw [List.filter_cons_of_neg h]
      simp only [bestLoop]
      rw [if_neg h]; exact ih _

theorem bestLoop_some (lm : LM St) (st : St) : ∀ (opts pre : List String) (b : Int) (o : String),
    (lm.step st o).1 = b →
    (∃ k, pre[k]? = some o ∧ (∀ o' ∈ pre, (lm.step st o').1 ≤ b) ∧
      ∀ (j : Nat) (o' : String), j < k → pre[j]? = some o' → (lm.step st o').1 < b) →
    ∃ o2, (bestLoop lm st (fun _ => true) opts (some b, o)).2 = o2 ∧
    (∃ k, (pre ++ opts)[k]? = some o2 ∧ (∀ o' ∈ pre ++ opts, (lm.step st o').1 ≤ (lm.step st o2).1) ∧
      ∀ (j : Nat) (o' : String), j < k → (pre ++ opts)[j]? = some o' → (lm.step st o').1 < (lm.step st o2).1) := by
  intro opts
  induction opts with
  | nil =>
    intro pre b o hb ⟨k, h1, h2, h3⟩
    exact ⟨o, rfl, k, by simpa using h1, by simpa [hb] using h2, by simpa [hb] using h3⟩
  | cons x r ih =>
    intro pre b o hb ⟨k, h1, h2, h3⟩
    have e : pre ++ x :: r = (pre ++ [x]) ++ r := by simp
    rw [e]
    have hk : k < pre.length := by
      rcases Nat.lt_or_ge k pre.length with h | h
      · exact h
      · rw [List.getElem?_eq_none h] at h1; cases h1
    by_cases hlt : b < (lm.step st x).1
    · have hb' : bestLoop lm st (fun _ => true) (x :: r) (some b, o) =
          bestLoop lm st (fun _ => true) r (some (lm.step st x).1, x) := by
        simp [bestLoop, hlt]
      rw [hb']
      refine ih (pre ++ [x]) _ x rfl ⟨pre.length, by simp, ?_, ?_⟩
      · intro o' ho'
        rcases List.mem_append.1 ho' with h | h
        · have := h2 o' h; omega
        · rw [List.mem_singleton.1 h]; exact Int.le_refl _
      · intro j o' hj ho'
        rw [List.getElem?_append_left hj] at ho'
        have := h2 o' (List.mem_of_getElem? ho')
        omega
    · have hb' : bestLoop lm st (fun _ => true) (x :: r) (some b, o) =
          bestLoop lm st (fun _ => true) r (some b, o) := by
        simp [bestLoop, hlt]
      rw [hb']
      refine ih (pre ++ [x]) b o hb ⟨k, by rw [List.getElem?_append_left hk]; exact h1, ?_, ?_⟩
      · intro o' ho'
        rcases List.mem_append.1 ho' with h | h
        · exact h2 o' h
        · rw [List.mem_singleton.1 h]; omega
      · intro j o' hj ho'
        rw [List.getElem?_append_left (by omega)] at ho'
        exact h3 j o' hj ho'

theorem bestLoop_chosen (lm : LM St) (st : St) (opts : List String) (w : String) :
    Chosen (fun o => (lm.step st o).1) opts w (bestLoop lm st (fun _ => true) opts (none, w)).2 := by
  cases opts with
  | nil => exact .inl ⟨rfl, rfl⟩
  | cons x r =>
    right
    have hb' : bestLoop lm st (fun _ => true) (x :: r) (none, w) =
          bestLoop lm st (fun _ => true) r (some (lm.step st x).1, x) := by
        simp [bestLoop]
    rw [hb']
    obtain ⟨o2, he, k, h1, h2, h3⟩ := bestLoop_some lm st r [x] _ x rfl
      ⟨0, by simp, by simp, by intro j o' hj; omega⟩
    rw [he]
    exact ⟨k, h1, h2, h3⟩

theorem choose_chosen (lm : LM St) (caps) (st : St) (ok : String → Bool) (w : String) :
    Chosen (fun o => (lm.step st o).1) ((optionsOf caps w).filter ok) w (choose lm caps st ok w) := by
  unfold choose optionsOf
  cases lk caps w with
  | none => exact .inl ⟨rfl, rfl⟩
  | some opts => dsimp only [Option.getD]; rw [bestLoop_filter]; exact bestLoop_chosen lm st _ w

theorem restLoop_spec (lm : LM St) (caps) : ∀ (str : List String) (st : St) (res : List String),
    ∃ out, restLoop lm caps str st res = res ++ out ∧ out.length = str.length ∧
      ∀ (i : Nat) (w o : String), str[i]? = some w → out[i]? = some o →
        Chosen (fun x => (lm.step (stateAfter lm st ((str.zip out).take i)) x).1) (optionsOf caps w) w o := by
  intro str
  induction str with
  | nil => intro st res; exact ⟨[], by simp [restLoop], rfl, by intro i w o h; simp at h⟩
  | cons x r ih =>
    intro st res
    obtain ⟨out, h1, h2, h3⟩ := ih (if x = mark then st else (lm.step st (choose lm caps st (fun _ => true) x)).2)
      (res ++ [choose lm caps st (fun _ => true) x])
    refine ⟨choose lm caps st (fun _ => true) x :: out, ?_, by simp [h2], ?_⟩
    · simp only [restLoop]; rw [h1]; simp
    · intro i w o hw ho
      cases i with
      | zero =>
        simp only [List.getElem?_cons_zero, Option.some.injEq] at hw ho
        subst hw; subst ho
        have := choose_chosen lm caps st (fun _ => true) x
        rw [List.filter_eq_self.2 (by simp)] at this
        simp only [List.take_zero, stateAfter]
        exact this
      | succ i =>
        simp only [List.getElem?_cons_succ] at hw ho
        have := h3 i w o hw ho
        simp only [List.zip_cons_cons, List.take_succ_cons, stateAfter]
        exact this

/-- **C309.** Without a prefix, capitalising a sentence keeps the number of words, and every word is replaced by
the first of its options with the largest log-probability after the words already output (or kept, when it has no
options); the mark of the end of the prefix is not seen by the language model. -/
theorem C309_no_prefix (lm : LM St) (caps : List (String × List String)) (str : List String) :
    ∃ out, capitalize lm caps [] str = some out ∧ out.length = str.length ∧
      ∀ (i : Nat) (w o : String), str[i]? = some w → out[i]? = some o →
        Chosen (fun x => (lm.step (stateAfter lm lm.init ((str.zip out).take i)) x).1) (optionsOf caps w) w o := by
  obtain ⟨out, h1, h2, h3⟩ := restLoop_spec lm caps str lm.init []
  refine ⟨out, ?_, h2, h3⟩
  simp [capitalize, h1]

/-- A language model that prefers "The" at the beginning and "the" elsewhere. -/
def toyLM : LM Bool := ⟨true, fun b w => (if (w == "The") == b then 1 else 0, false)⟩

example : capitalize toyLM [("the", ["the", "The"])] [] ["the", "the", "x"] = some ["The", "the", "x"] := by
  decide +kernel
example : capitalize toyLM [("the", ["the", "The"])] [] ["<END_OF_PREF_MARK>", "the", "the"] =
    some ["<END_OF_PREF_MARK>", "The", "the"] := by decide +kernel

/-! ### C310 -/

/-- **C310 (as a user expects it).** When the sentence has at least as many words as the prefix, the result begins
with all the words of the prefix but the last one, and then comes a word that extends the last word of the prefix
if one of the options of the word of the sentence does. -/
def C310_full : Prop :=
  ∀ (St : Type) (lm : LM St) (caps : List (String × List String)) (pre : List String) (p : String)
    (str : List String) (w : String), str[pre.length]? = some w →
    ∃ o rest, capitalize lm caps (pre ++ [p]) str = some (pre ++ o :: rest) ∧
      ((∃ x ∈ optionsOf caps w, p.toList <+: x.toList) → p.toList <+: o.toList)

/-- The word after `pre` is compared with the word of the sentence instead of the word of the prefix. -/
theorem C310_counterexample : ¬ C310_full := by
  intro h
  obtain ⟨o, rest, h1, h2⟩ := h Unit ⟨(), fun _ _ => (0, ())⟩ [("the", ["The"])] [] "The" ["the"] "the" rfl
  have e : capitalize (⟨(), fun _ _ => (0, ())⟩ : LM Unit) [("the", ["The"])] [] ["the"] = some ["The"] := by
    decide +kernel
  have e2 : capitalize (⟨(), fun _ _ => (0, ())⟩ : LM Unit) [("the", ["The"])] ["The"] ["the"] = some ["the"] := by
    decide +kernel
  simp only [List.nil_append] at h1
  rw [e2] at h1
  injection h1 with h1
  injection h1 with h1 h3
  have := h2 ⟨"The", by decide +kernel, by decide +kernel⟩
  rw [← h1] at this
  revert this
  decide +kernel

theorem prefixLoop_spec (lm : LM St) : ∀ (l : List String) (st : St) (res : List String),
    prefixLoop lm l st res = (l.foldl (fun s w => (lm.step s w).2) st, res ++ l) := by
  intro l
  induction l with
  | nil => intro st res; simp [prefixLoop]
  | cons w r ih => intro st res; simp [prefixLoop, ih]

/-- **C310 (partial).** With a prefix and a sentence with at least as many words: the result has as many words as
the sentence; it begins with the words of the prefix but the last one; the next word is the first, among the
options that extend the word of the *sentence*, of those with the largest log-probability after the preceding words
of the prefix; and the words that follow are chosen as in C309, after the words output.  With a shorter sentence the
behaviour is undefined.  What is missing: the word is chosen among the options that extend the last word of the
prefix, which is not what the program does. -/
theorem C310_prefix_partial (lm : LM St) (caps : List (String × List String)) (pre : List String) (p : String)
    (str : List String) :
    (str.length ≤ pre.length → capitalize lm caps (pre ++ [p]) str = none) ∧
    ∀ w, str[pre.length]? = some w →
      ∃ o rest, capitalize lm caps (pre ++ [p]) str = some (pre ++ o :: rest) ∧
        (pre ++ o :: rest).length = str.length ∧
        Chosen (fun x => (lm.step (pre.foldl (fun s w => (lm.step s w).2) lm.init) x).1)
          ((optionsOf caps w).filter (fun x => w.toList.isPrefixOf x.toList)) w o ∧
        ∀ (i : Nat) (w' o' : String), str[pre.length + 1 + i]? = some w' → rest[i]? = some o' →
          Chosen (fun x => (lm.step (stateAfter lm ((pre ++ [o]).foldl (fun s w => (lm.step s w).2) lm.init)
            (((str.drop (pre.length + 1)).zip rest).take i)) x).1) (optionsOf caps w') w' o' := by
  have hp : (if (pre ++ [p]).length > 1 then prefixLoop lm (pre ++ [p]).dropLast lm.init [] else (lm.init, [])) =
      (pre.foldl (fun s w => (lm.step s w).2) lm.init, pre) := by
    split
    · rw [prefixLoop_spec]; simp
    · rename_i h
      have : pre = [] := by
        cases pre with
        | nil => rfl
        | cons a b => simp at h
      subst this; rfl
  constructor
  · intro h
    simp only [capitalize]
    rw [if_pos (by simp : (pre ++ [p]).length ≥ 1)]
    rw [List.getElem?_eq_none (by simpa using h)]
  · intro w hw
    have hlt : pre.length < str.length := by
      rcases Nat.lt_or_ge pre.length str.length with h | h
      · exact h
      · rw [List.getElem?_eq_none h] at hw; cases hw
    let o := choose lm caps (pre.foldl (fun s w => (lm.step s w).2) lm.init) (compatible w) w
    obtain ⟨out, h1, h2, h3⟩ := restLoop_spec lm caps (str.drop (pre.length + 1))
      (lm.step (pre.foldl (fun s w => (lm.step s w).2) lm.init) o).2 (pre ++ [o])
    refine ⟨o, out, ?_, ?_, ?_, ?_⟩
    · simp only [capitalize]
      rw [hp, if_pos (by simp : (pre ++ [p]).length ≥ 1)]
      have e : (pre ++ [p]).length - 1 = pre.length := by simp
      rw [e, hw]
      dsimp only
      have h1' := h1
      simp only [o] at h1'
      rw [h1']
      simp [o]
    · simp [h2]; omega
    · exact choose_chosen lm caps _ (compatible w) w
    · intro i w' o' hw' ho'
      have := h3 i w' o' (by rw [List.getElem?_drop]; exact hw') ho'
      simpa [List.foldl_append] using this

example : capitalize toyLM [("the", ["the", "The"]), ("man", ["Man"])] ["He", "th"] ["he", "the", "man"] =
    some ["He", "the", "Man"] := by decide +kernel

/-! ### C311 -/

/-- A call on a processor: pre-processing `str`, or post-processing. -/
inductive Op where
  | pre (str : String) (keep : Bool)
  | post (str : List String) (caseconv : Bool)

/-- The processor after the calls. -/
def runOps (tok : String → List String) (p : Proc2) : List Op → Proc2
  | [] => p
  | .pre s k :: r => runOps tok (p.preproc tok s k) r
  | .post _ _ :: r => runOps tok p r

theorem runOps_append (tok : String → List String) : ∀ (a b : List Op) (p : Proc2),
    runOps tok p (a ++ b) = runOps tok (runOps tok p a) b := by
  intro a
  induction a with
  | nil => intro b p; rfl
  | cons x r ih => intro b p; cases x <;> exact ih _ _

theorem runOps_caps (tok : String → List String) : ∀ (a : List Op) (p : Proc2), (runOps tok p a).caps = p.caps := by
  intro a
  induction a with
  | nil => intro p; rfl
  | cons x r ih =>
    intro p
    cases x with
    | pre s k =>
      simp only [runOps]; rw [ih]
      unfold Proc2.preproc; cases k <;> rfl
    | post s c => exact ih p

theorem runOps_posts (tok : String → List String) : ∀ (a : List Op) (p : Proc2),
    (∀ x ∈ a, ∃ s c, x = .post s c) → runOps tok p a = p := by
  intro a
  induction a with
  | nil => intro p _; rfl
  | cons x r ih =>
    intro p h
    obtain ⟨s, c, rfl⟩ := h x (by simp)
    exact ih p (fun y hy => h y (by simp [hy]))

/-- **C311.** Whatever calls were made before, after a sentence has been pre-processed and any number of
translations post-processed: without case conversion the words of a translation are not changed; with it, they are
capitalised with the words of that sentence as the prefix, or with no prefix if the sentence was pre-processed
keeping its information. -/
theorem C311_session (tok : String → List String) (lm : LM St) (p : Proc2) (before after : List Op) (s : String)
    (keep : Bool) (hafter : ∀ x ∈ after, ∃ t c, x = .post t c) (str : List String) :
    let q := runOps tok p (before ++ .pre s keep :: after)
    q.postproc lm str false = some str ∧
    q.postproc lm str true = capitalize lm p.caps (if keep then [] else tok s) str := by
  intro q
  have e : q = (runOps tok p before).preproc tok s keep := by
    simp only [q]
    rw [runOps_append]
    simp only [runOps]
    exact runOps_posts tok after _ hafter
  refine ⟨by simp [Proc2.postproc], ?_⟩
  have hc := runOps_caps tok before p
  rw [e]
  unfold Proc2.postproc Proc2.preproc
  cases keep <;> simp [hc]

example : (runOps (fun s => [s]) ⟨["x"], [("the", ["The"])]⟩ [.pre "y" true, .pre "th" false, .post [] true]).last =
    ["th"] := by rfl

/-! ### C312 -/

/-- The world after the calls. -/
def runCalls {Tb : Type} (lib : Lib Tb) (w : World Tb) : List Call → World Tb
  | [] => w
  | c :: r => runCalls lib (call lib w c).1 r

/-- The calls before `c`, the last of which that kept something for `p` kept `s`. -/
def LastKept (p : Nat) (s : String) (cs : List Call) : Prop :=
  ∃ a b cc, cs = a ++ .pre p s cc true :: b ∧ ∀ t c, Call.pre p t c true ∉ b

theorem runCalls_append {Tb : Type} (lib : Lib Tb) : ∀ (a b : List Call) (w : World Tb),
    runCalls lib w (a ++ b) = runCalls lib (runCalls lib w a) b := by
  intro a
  induction a with
  | nil => intro b w; rfl
  | cons x r ih => intro b w; exact ih _ _

theorem runCalls_kept {Tb : Type} (lib : Lib Tb) (p : Nat) : ∀ (cs : List Call) (w : World Tb),
    (∀ t c, Call.pre p t c true ∉ cs) → (runCalls lib w cs).kept p = w.kept p := by
  intro cs
  induction cs with
  | nil => intro w _; rfl
  | cons x r ih =>
    intro w h
    simp only [runCalls]
    rw [ih _ (fun t c ht => h t c (List.mem_cons_of_mem _ ht))]
    cases x with
    | pre q s cc keep =>
      simp only [call, preprocLine]
      by_cases hq : p = q
      · subst hq
        cases keep with
        | true => exact absurd (List.mem_cons_self) (h s cc)
        | false => simp
      · simp [hq]
    | post q s cc => rfl

theorem lastKept_kept {Tb : Type} (lib : Lib Tb) (w : World Tb) (p : Nat) (s : String) (cs : List Call)
    (h : LastKept p s cs) : (runCalls lib w cs).kept p = s := by
  obtain ⟨a, b, cc, rfl, hb⟩ := h
  rw [runCalls_append]
  simp only [runCalls]
  rw [runCalls_kept lib p b _ hb]
  simp [call, preprocLine]

/-- **C312 (as a user expects it).** With several processors in use, post-processing with one of them depends only
on the sentence it kept last. -/
def C312_full : Prop :=
  ∀ (Tb : Type) (lib : Lib Tb) (w : World Tb) (cs cs' : List Call) (p : Nat) (s str : String) (cc : Bool),
    LastKept p s cs → LastKept p s cs' →
    (call lib (runCalls lib w cs) (.post p str cc)).2 = (call lib (runCalls lib w cs') (.post p str cc)).2

/-- An empty sentence kept by the first processor leaves the tables of the second one in use. -/
theorem C312_counterexample : ¬ C312_full := by
  intro h
  have := h String ⟨fun s _ => s, fun s _ => s, fun t _ _ => t⟩ ⟨fun _ => "", ""⟩
    [.pre 0 "" true true] [.pre 0 "" true true, .pre 1 "x" true true] 0 "" "y" true
    ⟨[], [], true, rfl, by simp⟩ ⟨[], [.pre 1 "x" true true], true, rfl, by simp⟩
  revert this
  decide +kernel

/-- **C312 (partial).** With several processors in use, the result of post-processing with one of them is computed
with the tables of the sentence it kept last, whatever the other ones did, when that sentence is not empty; if
nothing but pre-processing that keeps nothing and post-processing with processors that have kept nothing happens,
the tables do not change.  What is missing: an empty sentence. -/
theorem C312_restores_tables_partial {Tb : Type} (lib : Lib Tb) (w : World Tb) (cs : List Call) (p : Nat)
    (s str : String) (cc : Bool) (hs : s ≠ "") (h : LastKept p s cs) :
    (call lib (runCalls lib w cs) (.post p str cc)).2 = lib.post (lib.keep s cc) str cc := by
  simp [call, postprocLine, lastKept_kept lib w p s cs h, hs]

/-- The second statement of C312. -/
theorem C312_tables_kept {Tb : Type} (lib : Lib Tb) : ∀ (cs : List Call) (w : World Tb),
    (∀ q, w.kept q = "") → (∀ q t c, Call.pre q t c true ∉ cs) → (runCalls lib w cs).tb = w.tb := by
  intro cs
  induction cs with
  | nil => intro w _ _; rfl
  | cons x r ih =>
    intro w hw h
    simp only [runCalls]
    rw [ih]
    · cases x with
      | pre q s cc keep =>
        cases keep with
        | true => exact absurd List.mem_cons_self (h q s cc)
        | false => simp [call, preprocLine]
      | post q s cc => simp [call, postprocLine, hw]
    · intro q'
      cases x with
      | pre q s cc keep =>
        cases keep with
        | true => exact absurd List.mem_cons_self (h q s cc)
        | false =>
          simp only [call, preprocLine]
          by_cases hq : q' = q <;> simp [hq, hw]
      | post q s cc => exact hw q'
    · exact fun q t c ht => h q t c (List.mem_cons_of_mem _ ht)

example : LastKept 0 "a" [.pre 0 "a" true true, .pre 1 "b" true true, .post 1 "c" true] :=
  ⟨[], [.pre 1 "b" true true, .post 1 "c" true], true, rfl, by simp⟩

end Thot.Capit
