import Verif.Opts.Model
/-! C218: options of a command line. C219: configuration files. C220: precedence in `thot_ms_dec` and `thot_ms_alig`.
C221: configuration of the decoder. -/
namespace Thot.Opts
open Thot.Awk (Str fields)
open Thot.Desc (fld nf linesOf)
open Thot.SentHandler (joinWords Word fields_join line_join Line text)

/-! ### C218 -/

theorem readVal_cons (label a b : Str) (r : List Str) :
    readVal label (a :: b :: r) = if a = label then some b else readVal label (b :: r) := rfl

/-- **C218 (value).** The value of an option is the argument that follows its first occurrence. -/
theorem C218_value (label : Str) : ∀ (args : List Str) (v : Str), readVal label args = some v ↔
    ∃ pre post, args = pre ++ label :: v :: post ∧ label ∉ pre
  | [], v => by simp [readVal]
  | [a], v => by
    simp only [readVal, false_iff, reduceCtorEq]
    rintro ⟨pre, post, h, _⟩
    have := congrArg List.length h
    simp at this
    omega
  | a :: b :: r, v => by
    rw [readVal_cons]
    by_cases ha : a = label
    · rw [if_pos ha]
      constructor
      · intro h; injection h with h; exact ⟨[], r, by rw [ha, h]; rfl, by simp⟩
      · rintro ⟨pre, post, h, hn⟩
        cases pre with
        | nil => simp only [List.nil_append, List.cons.injEq] at h; rw [h.2.1]
        | cons x pre =>
          simp only [List.cons_append, List.cons.injEq] at h
          exact absurd (by rw [← h.1, ha]; exact List.mem_cons_self) hn
    · rw [if_neg ha, C218_value label (b :: r) v]
      constructor
      · rintro ⟨pre, post, h, hn⟩
        refine ⟨a :: pre, post, by rw [h]; rfl, ?_⟩
        simp only [List.mem_cons, not_or]
        exact ⟨fun c => ha c.symm, hn⟩
      · rintro ⟨pre, post, h, hn⟩
        cases pre with
        | nil => simp only [List.nil_append, List.cons.injEq] at h; exact absurd h.1 ha
        | cons x pre =>
          simp only [List.cons_append, List.cons.injEq] at h
          exact ⟨pre, post, h.2, fun c => hn (List.mem_cons_of_mem _ c)⟩

/-- An option has no value exactly when it occurs nowhere or only as the last argument. -/
theorem C218_no_value (label : Str) : ∀ (args : List Str), readVal label args = none ↔ label ∉ args.dropLast
  | [] => by simp [readVal]
  | [a] => by simp [readVal]
  | a :: b :: r => by
    rw [readVal_cons]
    show _ ↔ label ∉ a :: (b :: r).dropLast
    by_cases ha : a = label
    · rw [if_pos ha]; simp [ha]
    · rw [if_neg ha, C218_no_value label (b :: r)]
      simp only [List.mem_cons, not_or]
      exact ⟨fun h => ⟨fun c => ha c.symm, h⟩, fun h => h.2⟩

/-- **C218 (flag).** -/
theorem C218_flag (label : Str) (args : List Str) : readFlag label args = true ↔ label ∈ args := by
  induction args with
  | nil => simp [readFlag]
  | cons a r ih =>
    rw [readFlag]
    by_cases ha : a = label
    · rw [if_pos ha]; simp [ha]
    · rw [if_neg ha, ih]
      simp only [List.mem_cons]
      exact ⟨.inr, fun h => h.resolve_left fun c => ha c.symm⟩

theorem readTwo_cons (label a b : Str) (r : List Str) : readTwo label (a :: b :: r) =
    if a = label then (match r with
      | c :: _ => some (b, c)
      | [] => none) else readTwo label (b :: r) := rfl

/-- **C218 (two values).** -/
theorem C218_two (label : Str) : ∀ (args : List Str) (v w : Str), readTwo label args = some (v, w) ↔
    ∃ pre post, args = pre ++ label :: v :: w :: post ∧ label ∉ pre
  | [], v, w => by simp [readTwo]
  | [a], v, w => by
    simp only [readTwo, false_iff, reduceCtorEq]
    rintro ⟨pre, post, h, _⟩
    have := congrArg List.length h
    simp at this
    omega
  | a :: b :: r, v, w => by
    rw [readTwo_cons]
    by_cases ha : a = label
    · rw [if_pos ha]
      constructor
      · intro h
        cases r with
        | nil => cases h
        | cons c r => injection h with h; injection h with h1 h2; exact ⟨[], r, by rw [ha, h1, h2]; rfl, by simp⟩
      · rintro ⟨pre, post, h, hn⟩
        cases pre with
        | nil => simp only [List.nil_append, List.cons.injEq] at h; rw [h.2.2, h.2.1]
        | cons x pre =>
          simp only [List.cons_append, List.cons.injEq] at h
          exact absurd (by rw [← h.1, ha]; exact List.mem_cons_self) hn
    · rw [if_neg ha, C218_two label (b :: r) v w]
      constructor
      · rintro ⟨pre, post, h, hn⟩
        refine ⟨a :: pre, post, by rw [h]; rfl, ?_⟩
        simp only [List.mem_cons, not_or]
        exact ⟨fun c => ha c.symm, hn⟩
      · rintro ⟨pre, post, h, hn⟩
        cases pre with
        | nil => simp only [List.nil_append, List.cons.injEq] at h; exact absurd h.1 ha
        | cons x pre =>
          simp only [List.cons_append, List.cons.injEq] at h
          exact ⟨pre, post, h.2, fun c => hn (List.mem_cons_of_mem _ c)⟩

/-- **C218 (what is an option).** A dash followed by a character that is not a digit: negative integers are values, but
`-.5` is an option. -/
theorem C218_isOption (s : Str) : isOption s = true ↔ ∃ c r, s = '-' :: c :: r ∧ ¬ (c.isDigit = true) := by
  unfold isOption
  split
  · rename_i c r
    have hd : (c == '0' || c == '1' || c == '2' || c == '3' || c == '4' || c == '5' || c == '6' || c == '7' || c == '8' || c == '9') = c.isDigit := by
      rw [Bool.eq_iff_iff]
      simp only [Bool.or_eq_true, beq_iff_eq]
      constructor
      · rintro (((((((((h | h) | h) | h) | h) | h) | h) | h) | h) | h) <;> (subst h; decide)
      · intro h
        unfold Char.isDigit at h
        simp only [Bool.and_eq_true, decide_eq_true_eq] at h
        obtain ⟨h1, h2⟩ := h
        have e1 : 48 ≤ c.toNat := h1
        have e2 : c.toNat ≤ 57 := h2
        have aux : ∀ d : Char, c.toNat = d.toNat → c = d := fun d hd => Char.toNat_inj.1 hd
        have : c.toNat = 48 ∨ c.toNat = 49 ∨ c.toNat = 50 ∨ c.toNat = 51 ∨ c.toNat = 52 ∨ c.toNat = 53 ∨ c.toNat = 54 ∨ c.toNat = 55 ∨
          c.toNat = 56 ∨ c.toNat = 57 := by omega
        rcases this with h | h | h | h | h | h | h | h | h | h
        · exact .inl (.inl (.inl (.inl (.inl (.inl (.inl (.inl (.inl (aux '0' h)))))))))
        · exact .inl (.inl (.inl (.inl (.inl (.inl (.inl (.inl (.inr (aux '1' h)))))))))
        · exact .inl (.inl (.inl (.inl (.inl (.inl (.inl (.inr (aux '2' h))))))))
        · exact .inl (.inl (.inl (.inl (.inl (.inl (.inr (aux '3' h)))))))
        · exact .inl (.inl (.inl (.inl (.inl (.inr (aux '4' h))))))
        · exact .inl (.inl (.inl (.inl (.inr (aux '5' h)))))
        · exact .inl (.inl (.inl (.inr (aux '6' h))))
        · exact .inl (.inl (.inr (aux '7' h)))
        · exact .inl (.inr (aux '8' h))
        · exact .inr (aux '9' h)
    rw [hd]
    constructor
    · intro h; exact ⟨c, r, rfl, by simpa using h⟩
    · rintro ⟨c', r', h, hc⟩
      simp only [List.cons.injEq, true_and] at h
      rw [h.1]; simpa using hc
  · rename_i hno
    simp only [Bool.false_eq_true, false_iff]
    rintro ⟨c, r, rfl, _⟩
    exact hno c r rfl

theorem seqLoop_spec (l : List Str) : ∃ post, l = seqLoop l ++ post ∧ (∀ v ∈ seqLoop l, isOption v = false) ∧
    (post = [] ∨ ∃ o r, post = o :: r ∧ isOption o = true) := by
  induction l with
  | nil => exact ⟨[], rfl, by simp [seqLoop], .inl rfl⟩
  | cons a r ih =>
    rw [seqLoop]
    by_cases ha : isOption a = true
    · rw [if_pos ha]; exact ⟨a :: r, rfl, by simp, .inr ⟨a, r, rfl, ha⟩⟩
    · rw [if_neg ha]
      obtain ⟨post, h1, h2, h3⟩ := ih
      refine ⟨post, by rw [List.cons_append, ← h1], ?_, h3⟩
      intro v hv
      rcases List.mem_cons.1 hv with rfl | hv
      · simpa using ha
      · exact h2 v hv

theorem seqLoop_append (vs post : List Str) (h : ∀ v ∈ vs, isOption v = false) (hp : post = [] ∨ ∃ o r, post = o :: r ∧ isOption o = true) :
    seqLoop (vs ++ post) = vs := by
  induction vs with
  | nil =>
    rcases hp with rfl | ⟨o, r, rfl, ho⟩
    · rfl
    · rw [List.nil_append, seqLoop, if_pos ho]
  | cons v vs ih =>
    rw [List.cons_append, seqLoop, if_neg (by rw [h v List.mem_cons_self]; simp), ih (fun x hx => h x (List.mem_cons_of_mem _ hx))]

theorem readSeq_cons (label a b : Str) (r : List Str) :
    readSeq label (a :: b :: r) = if a = label then some (seqLoop (b :: r)) else readSeq label (b :: r) := rfl

/-- **C218 (sequence).** The values of a sequence are the arguments after the first occurrence of the option, up to the next option. -/
theorem C218_seq (label : Str) : ∀ (args : List Str) (vs : List Str), readSeq label args = some vs ↔
    ∃ pre post, args = pre ++ label :: (vs ++ post) ∧ label ∉ pre ∧ vs ++ post ≠ [] ∧ (∀ v ∈ vs, isOption v = false) ∧
      (post = [] ∨ ∃ o r, post = o :: r ∧ isOption o = true)
  | [], vs => by simp [readSeq]
  | [a], vs => by
    simp only [readSeq, false_iff, reduceCtorEq]
    rintro ⟨pre, post, h, _, hne, _⟩
    have := congrArg List.length h
    cases hvp : vs ++ post with
    | nil => exact hne hvp
    | cons x y => rw [hvp] at this; simp at this; omega
  | a :: b :: r, vs => by
    rw [readSeq_cons]
    by_cases ha : a = label
    · rw [if_pos ha]
      constructor
      · intro h
        injection h with h
        obtain ⟨post, h1, h2, h3⟩ := seqLoop_spec (b :: r)
        rw [h] at h1 h2
        exact ⟨[], post, by rw [ha, ← h1]; rfl, by simp, by rw [← h1]; simp, h2, h3⟩
      · rintro ⟨pre, post, h, hn, hne, h2, h3⟩
        cases pre with
        | nil =>
          simp only [List.nil_append, List.cons.injEq] at h
          rw [h.2, seqLoop_append vs post h2 h3]
        | cons x pre =>
          simp only [List.cons_append, List.cons.injEq] at h
          exact absurd (by rw [← h.1, ha]; exact List.mem_cons_self) hn
    · rw [if_neg ha, C218_seq label (b :: r) vs]
      constructor
      · rintro ⟨pre, post, h, hn, hr⟩
        refine ⟨a :: pre, post, by rw [h]; rfl, ?_, hr⟩
        simp only [List.mem_cons, not_or]
        exact ⟨fun c => ha c.symm, hn⟩
      · rintro ⟨pre, post, h, hn, hr⟩
        cases pre with
        | nil => simp only [List.nil_append, List.cons.injEq] at h; exact absurd h.1 ha
        | cons x pre =>
          simp only [List.cons_append, List.cons.injEq] at h
          exact ⟨pre, post, h.2, fun c => hn (List.mem_cons_of_mem _ c), hr⟩

theorem floatLoop_map {F : Type} (scan : Str → Option F) : ∀ (l : List Str) (v : Option F), (∀ x ∈ seqLoop l, (scan x).isSome) →
    floatLoop scan v l = (seqLoop l).map scan
  | [], v, _ => rfl
  | a :: r, v, h => by
    rw [floatLoop, seqLoop]
    by_cases ha : isOption a = true
    · rw [if_pos ha, if_pos ha]; rfl
    · rw [if_neg ha, if_neg ha]
      rw [seqLoop, if_neg ha] at h
      obtain ⟨x, hx⟩ := Option.isSome_iff_exists.1 (h a List.mem_cons_self)
      rw [hx]
      show some x :: floatLoop scan (some x) r = (a :: seqLoop r).map scan
      rw [floatLoop_map scan r (some x) (fun y hy => h y (List.mem_cons_of_mem _ hy)), List.map_cons, hx]

/-- A sequence of numbers is the sequence of the values of its texts when all of them are numbers. -/
theorem C218_floats {F : Type} (scan : Str → Option F) (label : Str) : ∀ (args : List Str),
    (∀ vs, readSeq label args = some vs → ∀ x ∈ vs, (scan x).isSome) →
    readFloatSeq scan label args = (readSeq label args).map fun vs => vs.map scan
  | [], _ => rfl
  | [a], _ => rfl
  | a :: b :: r, h => by
    rw [readSeq_cons] at h ⊢
    show (if a = label then _ else _) = _
    by_cases ha : a = label
    · rw [if_pos ha, if_pos ha]
      rw [if_pos ha] at h
      rw [floatLoop_map scan (b :: r) none (h _ rfl)]
      rfl
    · rw [if_neg ha, if_neg ha]
      rw [if_neg ha] at h
      exact C218_floats scan label (b :: r) h

/-- The full property for numbers: a successful return means that the value was read. -/
def C218_num_full : Prop := ∀ (N : Type) (scan : Str → Option N) (label : Str) (args : List Str) (v : N) (x : N),
  readNum scan label args v = (x, true) → ∃ t, readVal label args = some t ∧ scan t = some x

/-- False of the code: success is returned, and the variable keeps its value, when the argument is not a number. -/
theorem C218_num_counterexample : ¬ C218_num_full := by
  intro h
  obtain ⟨t, _, h2⟩ := h Nat (fun _ => none) "-W".toList ["-W".toList, "x".toList] 7 7 (by decide)
  cases h2

/-- **C218 (number), what holds.** -/
theorem C218_num_partial {N : Type} (scan : Str → Option N) (label : Str) (args : List Str) (v : N) :
    (readVal label args = none → readNum scan label args v = (v, false)) ∧
    (∀ t x, readVal label args = some t → scan t = some x → readNum scan label args v = (x, true)) ∧
    (∀ t, readVal label args = some t → scan t = none → readNum scan label args v = (v, true)) := by
  unfold readNum
  refine ⟨fun h => by rw [h], fun t x h h2 => by rw [h]; simp only [h2, Option.getD_some], fun t h h2 => by rw [h]; simp only [h2, Option.getD_none]⟩

example : readVal "-lm".toList ["-tm".toList, "a".toList, "-lm".toList, "b".toList, "-lm".toList, "c".toList] = some "b".toList := by decide
example : readSeq "-tmw".toList ["-tmw".toList, "-1".toList, "0.5".toList, "-lm".toList, "c".toList] = some ["-1".toList, "0.5".toList] := by decide
example : readSeq "-tmw".toList ["-tmw".toList, "-.5".toList, "1".toList] = some [] := by decide

/-! ### C219 -/

theorem prefixLoop_iff (c s : Str) : prefixLoop c s = true ↔ c <+: s := by
  induction c generalizing s with
  | nil => simp [prefixLoop]
  | cons a c ih =>
    cases s with
    | nil => simp [prefixLoop]
    | cons b s =>
      rw [prefixLoop]
      by_cases h : b = a
      · rw [if_neg (by simp [h]), ih, h, List.cons_prefix_cons]; simp
      · rw [if_pos h, List.cons_prefix_cons]
        simp only [Bool.false_eq_true, false_iff]
        exact fun hc => h hc.1.symm

theorem isComment_iff (c s : Str) : isComment c s = true ↔ c <+: s := by
  unfold isComment
  by_cases h : s = c
  · rw [if_pos h, h]; simp
  · rw [if_neg h]
    by_cases hl : s.length ≥ c.length
    · rw [if_pos hl, prefixLoop_iff]
    · rw [if_neg hl]
      simp only [Bool.false_eq_true, false_iff]
      intro hc
      exact hl hc.length_le

theorem map_fld (l : Str) : (List.range (nf l)).map (fun i => fld l (i + 1)) = fields ' ' l := by
  apply List.ext_getElem?
  intro i
  rw [List.getElem?_map, Desc.nf_eq]
  by_cases h : i < (fields ' ' l).length
  · rw [List.getElem?_range h, Option.map_some, Desc.fld_eq, List.getElem?_eq_getElem h]
    rfl
  · rw [List.getElem?_eq_none (by simpa using h), List.getElem?_eq_none (by omega)]
    rfl

/-- Specification: a comment is a line whose first field starts with the comment string. -/
def CommentLine (comment : Str) (l : Str) : Prop := ∃ w r, fields ' ' l = w :: r ∧ comment <+: w

theorem lineArgs_comment {comment l : Str} (h : CommentLine comment l) : lineArgs comment l = [] := by
  obtain ⟨w, r, hf, hp⟩ := h
  unfold lineArgs
  have : fld l 1 = w := by rw [Desc.fld_eq l 0, hf]; rfl
  rw [this, if_pos ((isComment_iff comment w).2 hp)]
  split <;> rfl

theorem lineArgs_other {comment l : Str} (h : ¬ CommentLine comment l) : lineArgs comment l = fields ' ' l := by
  unfold lineArgs
  rw [map_fld]
  cases hf : fields ' ' l with
  | nil =>
    rw [if_neg (by rw [Desc.nf_eq, hf]; simp)]
  | cons w r =>
    have hw : fld l 1 = w := by rw [Desc.fld_eq l 0, hf]; rfl
    rw [if_pos (by rw [Desc.nf_eq, hf]; simp), hw, if_neg]
    intro hc
    exact h ⟨w, r, hf, (isComment_iff comment w).1 hc⟩

/-- **C219.** The arguments obtained from a configuration file are the fields of its lines that are not comments, in
order; blank lines contribute nothing; a comment mark after the first field is an argument like the others. -/
theorem C219_cfg (comment : Str) (ls : List Str) (hl : ∀ l ∈ ls, Line l) (P : Str → Bool)
    (hP : ∀ l ∈ ls, P l = true ↔ CommentLine comment l) :
    extractPars comment (some (text ls)) = some ((ls.filter fun l => !P l).flatMap (fields ' ')) ∧ extractPars comment none = none := by
  refine ⟨?_, rfl⟩
  show some ((linesOf (text ls)).flatMap (lineArgs comment)) = _
  have : linesOf (text ls) = ls := Desc.linesOf_text ls hl
  rw [this]
  congr 1
  clear this hl
  induction ls with
  | nil => rfl
  | cons l ls ih =>
    rw [List.flatMap_cons, ih (fun x hx => hP x (List.mem_cons_of_mem _ hx))]
    have hp := hP l List.mem_cons_self
    cases hb : P l with
    | true => rw [List.filter_cons_of_neg (by simp [hb]), lineArgs_comment (hp.1 hb)]; rfl
    | false =>
      rw [List.filter_cons_of_pos (by simp [hb]), List.flatMap_cons, lineArgs_other]
      intro hc
      rw [hp.2 hc] at hb
      cases hb

example : extractPars hash (some (text ["# c -tm x".toList, "".toList, "-tm a # b".toList, " #d".toList, "-W 3".toList])) =
    some ["-tm".toList, "a".toList, "#".toList, "b".toList, "-W".toList, "3".toList] := by decide +kernel

/-! ### C220 -/

section
variable {F : Type}

/-- Specification of precedence: the command line, then the configuration file, then the default. -/
def prec {N : Type} (get : List Str → Option N) (args cfg : List Str) (dflt : N) : N := ((get args).or (get cfg)).getD dflt

/-- The number given by an option, when its text is a number. -/
def numOf {N : Type} (scan : Str → Option N) (label : String) (args : List Str) : Option N := (readVal label.toList args).bind scan
def strOf (label : String) (args : List Str) : Option Str := readVal label.toList args
def verbOf (args : List Str) : Option Nat :=
  if "-v".toList ∈ args then some 1 else if "-v1".toList ∈ args then some 2 else if "-v2".toList ∈ args then some 3 else none

/-- What a user expects of the parameters `t` obtained from a command line and a configuration file, except for `-wgp` and the verbosity. -/
structure Precedence (sc : Scan F) (args cfg : List Str) (d t : Pars F) : Prop where
  W : t.W = prec (numOf sc.flt "-W") args cfg d.W
  S : t.S = prec (numOf sc.int "-S") args cfg d.S
  A : t.A = prec (numOf sc.int "-A") args cfg d.A
  nomon : t.nomon = prec (numOf sc.int "-nomon") args cfg d.nomon
  I : t.I = prec (numOf sc.int "-I") args cfg d.I
  G : t.G = prec (numOf sc.int "-G") args cfg d.G
  h : t.heuristic = prec (numOf sc.int "-h") args cfg d.heuristic
  lm : t.lm = prec (strOf "-lm") args cfg d.lm
  tm : t.tm = prec (strOf "-tm") args cfg d.tm
  cf : t.cf = prec (strOf "-cf") args cfg d.cf
  src : t.src = prec (strOf "-t") args cfg d.src
  wg : t.wg = prec (strOf "-wg") args cfg d.wg
  tmw : t.weights = prec (readFloatSeq sc.flt "-tmw".toList) args cfg d.weights
  be : t.be = true ↔ "-be".toList ∈ args ∨ "-be".toList ∈ cfg ∨ d.be = true

theorem num_prec {N : Type} (scan : Str → Option N) (label : String) (args cfg : List Str) (d : N) :
    num scan label args (num scan label cfg d) = prec (numOf scan label) args cfg d := by
  unfold num readNum prec numOf
  cases readVal label.toList args with
  | none =>
    simp only [Option.bind_none, Option.none_or]
    cases readVal label.toList cfg with
    | none => rfl
    | some y => simp only [Option.bind_some]
  | some x =>
    simp only [Option.bind_some]
    cases scan x with
    | none =>
      simp only [Option.getD_none, Option.none_or]
      cases readVal label.toList cfg with
      | none => rfl
      | some y => simp only [Option.bind_some]
    | some v => rfl

theorem str_prec (label : String) (args cfg : List Str) (d : Str) : str label args (str label cfg d) = prec (strOf label) args cfg d := by
  unfold str prec strOf
  cases readVal label.toList args <;> rfl

theorem flag_prec (label : String) (args cfg : List Str) (d : Bool) :
    flag label args (flag label cfg d) = true ↔ label.toList ∈ args ∨ label.toList ∈ cfg ∨ d = true := by
  unfold flag
  rw [← C218_flag, ← C218_flag]
  cases readFlag label.toList args <;> cases readFlag label.toList cfg <;> simp

theorem seq_prec (scan : Str → Option F) (args cfg : List Str) (d : List (Option F)) :
    (readFloatSeq scan "-tmw".toList args).getD ((readFloatSeq scan "-tmw".toList cfg).getD d) =
      prec (readFloatSeq scan "-tmw".toList) args cfg d := by
  unfold prec
  cases readFloatSeq scan "-tmw".toList args <;> rfl

/-- The parameters that both tools have. -/
theorem dec_precedence (sc : Scan F) (args cfg : List Str) (d : Pars F) : Precedence sc args cfg d (takeDec sc args (takeDec sc cfg d)) :=
  ⟨num_prec _ _ _ _ _, num_prec _ _ _ _ _, num_prec _ _ _ _ _, num_prec _ _ _ _ _, num_prec _ _ _ _ _, num_prec _ _ _ _ _, num_prec _ _ _ _ _,
   str_prec _ _ _ _, str_prec _ _ _ _, str_prec _ _ _ _, str_prec _ _ _ _, str_prec _ _ _ _, seq_prec _ _ _ _, flag_prec _ _ _ _⟩

theorem alig_precedence (sc : Scan F) (args cfg : List Str) (d : Pars F) : Precedence sc args cfg d (takeAlig sc args (takeAlig sc cfg d)) :=
  ⟨num_prec _ _ _ _ _, num_prec _ _ _ _ _, num_prec _ _ _ _ _, num_prec _ _ _ _ _, num_prec _ _ _ _ _, num_prec _ _ _ _ _, num_prec _ _ _ _ _,
   str_prec _ _ _ _, str_prec _ _ _ _, str_prec _ _ _ _, str_prec _ _ _ _, str_prec _ _ _ _, seq_prec _ _ _ _, flag_prec _ _ _ _⟩

/-- The arguments of the configuration file named in the command line: none if there is no `-c`. -/
def cfgArgs (files : Str → Option Str) (args : List Str) : Option (List Str) :=
  match readVal "-c".toList args with
  | none => some []
  | some name => extractPars hash (files name)

/-- The full property: all the parameters, including the verbosity and the pruning threshold. -/
def C220_full : Prop := ∀ (F : Type) (sc : Scan F) (files : Str → Option Str) (d : Pars F) (args cfg : List Str) (t : Pars F),
  cfgArgs files args = some cfg → takeParameters (takeDec sc) files d args = some t →
  Precedence sc args cfg d t ∧ t.verbosity = prec verbOf args cfg 0 ∧ t.wgp = prec (numOf sc.flt "-wgp") args cfg d.wgp

theorem num_nil {N : Type} (scan : Str → Option N) (label : String) (d : N) : num scan label [] d = d := rfl
theorem str_nil (label : String) (d : Str) : str label [] d = d := rfl
theorem flag_nil (label : String) (d : Bool) : flag label [] d = d := rfl

theorem takeDec_nil (sc : Scan F) (d : Pars F) : takeDec sc [] d = { d with verbosity := 0 } := rfl
theorem takeAlig_nil (sc : Scan F) (d : Pars F) : takeAlig sc [] d = { d with verbosity := 0 } := rfl

theorem take_eq (take : List Str → Pars F → Pars F) (hnil : ∀ args d, take args (take [] d) = take args d) (files : Str → Option Str)
    (d : Pars F) (args : List Str) :
    takeParameters take files d args = (cfgArgs files args).map fun cfg => take args (take cfg d) := by
  unfold takeParameters cfgArgs
  cases readVal "-c".toList args with
  | none => simp only [Option.map_some, hnil]
  | some name => rfl

theorem wgp_prec (sc : Scan F) (args cfg : List Str) (v : F) : wgpOf sc args (wgpOf sc cfg v) =
    prec (fun l => if (strOf "-wg" l).isSome then numOf sc.flt "-wgp" l else none) args cfg v := by
  have hp := num_prec sc.flt "-wgp" args cfg v
  unfold prec at hp ⊢
  unfold wgpOf
  show (if (strOf "-wg" args).isSome = true then num sc.flt "-wgp" args (if (strOf "-wg" cfg).isSome = true then num sc.flt "-wgp" cfg v else v)
    else (if (strOf "-wg" cfg).isSome = true then num sc.flt "-wgp" cfg v else v)) = _
  have h1 : ∀ (l : List Str) (w : F), num sc.flt "-wgp" l w = (numOf sc.flt "-wgp" l).getD w := by
    intro l w
    unfold num readNum numOf
    cases readVal "-wgp".toList l <;> rfl
  rw [h1, h1]
  by_cases ha : (strOf "-wg" args).isSome = true
  · by_cases hc : (strOf "-wg" cfg).isSome = true
    · simp only [if_pos ha, if_pos hc]
      cases numOf sc.flt "-wgp" args <;> rfl
    · simp only [if_pos ha, if_neg hc]
      cases numOf sc.flt "-wgp" args <;> rfl
  · by_cases hc : (strOf "-wg" cfg).isSome = true
    · simp only [if_neg ha, if_pos hc, Option.none_or]
    · simp only [if_neg ha, if_neg hc, Option.none_or, Option.getD_none]

/-- **C220 (thot_ms_dec), what holds**: every parameter but the verbosity and `-wgp` is the one of the command line, else that of the
configuration file, else the default; the verbosity is that of the command line alone; the threshold `-wgp` is taken from a list of arguments only if
`-wg` is in the same list. A configuration file that cannot be opened is an error. -/
theorem C220_dec_partial (sc : Scan F) (files : Str → Option Str) (d : Pars F) (args : List Str) :
    (cfgArgs files args = none → takeParameters (takeDec sc) files d args = none) ∧
    ∀ cfg, cfgArgs files args = some cfg → ∃ t, takeParameters (takeDec sc) files d args = some t ∧ Precedence sc args cfg d t ∧
      t.out = prec (strOf "-o") args cfg d.out ∧
      t.verbosity = (verbOf args).getD 0 ∧
      t.wgp = prec (fun l => if (strOf "-wg" l).isSome then numOf sc.flt "-wgp" l else none) args cfg d.wgp ∧
      t.E = d.E ∧ t.ref = d.ref ∧ t.p = d.p ∧ t.cov = d.cov := by
  have e := take_eq (takeDec sc) (fun args d => rfl) files d args
  rw [e]
  refine ⟨fun h => by rw [h]; rfl, ?_⟩
  intro cfg h
  rw [h]
  refine ⟨_, rfl, dec_precedence sc args cfg d, str_prec _ _ _ _, ?_, ?_, rfl, rfl, rfl, rfl⟩
  · show verbosityOf args = _
    unfold verbosityOf verbOf
    simp only [C218_flag]
    split
    · rfl
    · split
      · rfl
      · split <;> rfl
  · exact wgp_prec sc args cfg d.wgp

/-- **C220 (thot_ms_alig), what holds.** -/
theorem C220_alig_partial (sc : Scan F) (files : Str → Option Str) (d : Pars F) (args : List Str) :
    (cfgArgs files args = none → takeParameters (takeAlig sc) files d args = none) ∧
    ∀ cfg, cfgArgs files args = some cfg → ∃ t, takeParameters (takeAlig sc) files d args = some t ∧ Precedence sc args cfg d t ∧
      t.E = prec (numOf sc.int "-E") args cfg d.E ∧ t.ref = prec (strOf "-r") args cfg d.ref ∧
      (t.p = true ↔ "-p".toList ∈ args ∨ "-p".toList ∈ cfg ∨ d.p = true) ∧
      (t.cov = true ↔ "-cov".toList ∈ args ∨ "-cov".toList ∈ cfg ∨ d.cov = true) ∧
      t.verbosity = (verbOf args).getD 0 ∧
      t.wgp = prec (fun l => if (strOf "-wg" l).isSome then numOf sc.flt "-wgp" l else none) args cfg d.wgp ∧ t.out = d.out := by
  have e := take_eq (takeAlig sc) (fun args d => rfl) files d args
  rw [e]
  refine ⟨fun h => by rw [h]; rfl, ?_⟩
  intro cfg h
  rw [h]
  refine ⟨_, rfl, alig_precedence sc args cfg d, num_prec _ _ _ _ _, str_prec _ _ _ _, flag_prec _ _ _ _, flag_prec _ _ _ _, ?_, wgp_prec sc args cfg d.wgp, rfl⟩
  show verbosityOf args = _
  unfold verbosityOf verbOf
  simp only [C218_flag]
  split
  · rfl
  · split
    · rfl
    · split <;> rfl

end

def dPars : Pars Nat := ⟨10, 10, 10, 0, 0, 1, 0, 0, [], [], [], [], [], [], false, false, false, [], [], 0, 0⟩
def scNat : Scan Nat := ⟨fun s => some s.length, fun s => some s.length⟩

/-- False of the code: the verbosity given in the configuration file is lost. -/
theorem C220_counterexample : ¬ C220_full := by
  intro h
  have := (h Nat scNat (fun _ => some "-v\n".toList) dPars ["-c".toList, "f".toList] ["-v".toList] _ (by decide +kernel) rfl).2.1
  revert this
  decide +kernel

/-- The threshold of the command line is ignored when the word graph file is named in the configuration file. -/
theorem C220_wgp_ignored : ∃ t, takeParameters (takeDec scNat) (fun _ => some "-wg x\n".toList) dPars ["-c".toList, "f".toList, "-wgp".toList, "123".toList] = some t ∧
    t.wg = "x".toList ∧ t.wgp = dPars.wgp ∧ numOf scNat.flt "-wgp" ["-c".toList, "f".toList, "-wgp".toList, "123".toList] = some 3 := by
  refine ⟨_, rfl, ?_, ?_, ?_⟩ <;> decide +kernel

/-! ### C221 -/

/-- A line of a configuration file. -/
inductive CLine where
  | val (l v : Str)
  | seq (l : Str) (vs : List Str)
  | be
  | sp (v : Str)
  | comment (t : Str)
  | blank

/-- The fields of the line, nothing for a comment. -/
def CLine.args : CLine → List Str
  | .val l v => [l, v]
  | .seq l vs => l :: vs
  | .be => [sBe]
  | .sp v => [sSp, v]
  | .comment _ => []
  | .blank => []

/-- The text of the line. -/
def CLine.render : CLine → Str
  | .comment t => '#' :: t
  | x => joinWords x.args

/-- The options with one value of the documentation of the decoder, apart from `-sp`. -/
def oneValue : List Str := ["-tm", "-lm", "-cf", "-W", "-S", "-A", "-E", "-nomon", "-G", "-h", "-np", "-wgp", "-wgh", "-uc"].map (·.toList)
/-- The options with several values. -/
def sequences : List Str := ["-olp", "-tmw", "-ecw", "-catw"].map (·.toList)

/-- Well-formed lines: known options with the values they need. -/
def CLine.Ok : CLine → Prop
  | .val l v => l ∈ oneValue ∧ Word v
  | .seq l vs => l ∈ sequences ∧ vs ≠ [] ∧ ∀ v ∈ vs, Word v ∧ isOption v = false
  | .be => True
  | .sp v => Word v
  | .comment t => Line t
  | .blank => True

/-- The text of the file. -/
def cfgFile (ls : List CLine) : Str := text (ls.map CLine.render)

def CLine.valOf (l : Str) : CLine → Option Str
  | .val l' v => if l' = l then some v else none
  | .sp v => if sSp = l then some v else none
  | _ => none
def CLine.seqOf (l : Str) : CLine → List Str
  | .seq l' vs => if l' = l then vs else []
  | _ => []

theorem labels_ok : ∀ l ∈ sBe :: sSp :: (oneValue ++ sequences), Word l ∧ isOption l = true ∧ ¬ hash <+: l := by
  unfold Word; decide +kernel

theorem CLine.args_word {x : CLine} (h : x.Ok) : ∀ w ∈ x.args, Word w := by
  intro w hw
  cases x with
  | val l v =>
    simp only [CLine.args, List.mem_cons, List.not_mem_nil, or_false] at hw
    rcases hw with rfl | rfl
    · exact (labels_ok _ (by simp [h.1])).1
    · exact h.2
  | seq l vs =>
    rcases List.mem_cons.1 hw with rfl | hw
    · exact (labels_ok _ (by simp [h.1])).1
    · exact (h.2.2 w hw).1
  | be => rw [List.mem_singleton.1 hw]; exact (labels_ok _ (by simp)).1
  | sp v =>
    simp only [CLine.args, List.mem_cons, List.not_mem_nil, or_false] at hw
    rcases hw with rfl | rfl
    · exact (labels_ok _ (by simp)).1
    · exact h
  | comment t => cases hw
  | blank => cases hw

theorem CLine.head {x : CLine} (h : x.Ok) : x.args = [] ∨ ∃ l r, x.args = l :: r ∧ l ∈ sBe :: sSp :: (oneValue ++ sequences) := by
  cases x with
  | val l v => exact .inr ⟨l, [v], rfl, by simp [h.1]⟩
  | seq l vs => exact .inr ⟨l, vs, rfl, by simp [h.1]⟩
  | be => exact .inr ⟨sBe, [], rfl, by simp⟩
  | sp v => exact .inr ⟨sSp, [v], rfl, by simp⟩
  | comment t => exact .inl rfl
  | blank => exact .inl rfl

theorem lineArgs_render {x : CLine} (h : x.Ok) : lineArgs hash x.render = x.args := by
  by_cases hx : ∃ t, x = .comment t
  · obtain ⟨t, rfl⟩ := hx
    apply lineArgs_comment
    show ∃ w r, fields ' ' ('#' :: t) = w :: r ∧ hash <+: w
    by_cases ht : t = []
    · subst ht; exact ⟨hash, [], by decide, by simp⟩
    · obtain ⟨c, t', rfl⟩ := List.exists_cons_of_ne_nil ht
      by_cases hc : c = ' '
      · subst hc
        rw [Awk.fields_end ' ' '#' t' (by decide)]
        exact ⟨_, _, rfl, by decide⟩
      · cases hf : Awk.cut ' ' (c :: t') with
        | nil => exact absurd hf (Awk.cut_ne_nil _ _)
        | cons w r =>
          have hcut : Awk.cut ' ' ('#' :: c :: t') = ('#' :: w) :: r := by
            show (if '#' = ' ' then _ else _) = _
            rw [if_neg (by decide), hf]
          unfold fields
          rw [hcut, List.filter_cons_of_pos (by simp)]
          exact ⟨_, _, rfl, ⟨w, rfl⟩⟩
  · have hr : x.render = joinWords x.args := by
      cases x with
      | comment t => exact absurd ⟨t, rfl⟩ hx
      | val l v => rfl
      | seq l vs => rfl
      | be => rfl
      | sp v => rfl
      | blank => rfl
    rw [hr, lineArgs_other, fields_join (CLine.args_word h)]
    rintro ⟨w, r, hf, hp⟩
    rw [fields_join (CLine.args_word h)] at hf
    rcases CLine.head h with h0 | ⟨l, r', h1, h2⟩
    · rw [h0] at hf; cases hf
    · rw [h1] at hf
      injection hf with e1 e2
      rw [← e1] at hp
      exact (labels_ok l h2).2.2 hp

theorem line_render {x : CLine} (h : x.Ok) : Line x.render := by
  cases x with
  | comment t =>
    intro c hc
    rcases List.mem_cons.1 hc with rfl | hc
    · decide
    · exact h c hc
  | val l v => exact line_join (CLine.args_word (x := .val l v) h)
  | seq l vs => exact line_join (CLine.args_word (x := .seq l vs) h)
  | be => exact line_join (CLine.args_word (x := .be) h)
  | sp v => exact line_join (CLine.args_word (x := .sp v) h)
  | blank => exact line_join (CLine.args_word (x := .blank) h)

theorem extract_file (ls : List CLine) (h : ∀ x ∈ ls, x.Ok) : extractPars hash (some (cfgFile ls)) = some (ls.flatMap CLine.args) := by
  show some ((linesOf (text (ls.map CLine.render))).flatMap (lineArgs hash)) = _
  have e : linesOf (text (ls.map CLine.render)) = ls.map CLine.render := by
    apply Desc.linesOf_text
    intro l hl
    obtain ⟨x, hx, rfl⟩ := List.mem_map.1 hl
    exact line_render (h x hx)
  rw [e]
  congr 1
  clear e
  induction ls with
  | nil => rfl
  | cons x ls ih =>
    rw [List.map_cons, List.flatMap_cons, List.flatMap_cons, lineArgs_render (h x List.mem_cons_self), ih (fun y hy => h y (List.mem_cons_of_mem _ hy))]

/-- Effect of a line. -/
def CLine.apply (c : Cfg) : CLine → Cfg
  | .val l v => c.setVal l v
  | .seq l vs => c.addSeq l vs
  | .be => { c with be := true }
  | .sp v => c.setVal sSp v
  | .comment _ => c
  | .blank => c

theorem args_rest (ls : List CLine) (h : ∀ x ∈ ls, x.Ok) :
    ls.flatMap CLine.args = [] ∨ ∃ o r, ls.flatMap CLine.args = o :: r ∧ isOption o = true := by
  induction ls with
  | nil => exact .inl rfl
  | cons x ls ih =>
    rw [List.flatMap_cons]
    rcases CLine.head (h x List.mem_cons_self) with h0 | ⟨l, r, h1, h2⟩
    · rw [h0, List.nil_append]; exact ih (fun y hy => h y (List.mem_cons_of_mem _ hy))
    · rw [h1]; exact .inr ⟨l, _, rfl, (labels_ok l h2).2.1⟩

theorem val_known : ∀ l ∈ oneValue, l ∈ valLabels := by decide +kernel
theorem seq_notval : ∀ l ∈ sequences, l ∉ valLabels ∧ l ≠ sBe ∧ l ∈ seqLabels := by decide +kernel
theorem sp_not : sSp ∉ valLabels ∧ sSp ≠ sBe ∧ sSp ∉ seqLabels := by decide +kernel
theorem be_not : sBe ∉ valLabels := by decide +kernel

theorem cfgLoop_cons (n : Nat) (a : Str) (r : List Str) (c : Cfg) : cfgLoop (n + 1) (a :: r) c =
    (if a ∈ valLabels then
      (match r with
      | [] => .error
      | v :: r' => cfgLoop n r' (c.setVal a v))
    else if a = sBe then cfgLoop n r { c with be := true }
    else if a ∈ seqLabels then
      (match r with
      | [] => .error
      | _ :: _ => cfgLoop n (r.drop (seqLoop r).length) (c.addSeq a (seqLoop r)))
    else if a = sSp then
      (match r with
      | [] => .undef
      | v :: r' => cfgLoop n r' (c.setVal a v))
    else cfgLoop n r c) := by
  cases r <;> rfl

theorem cfgLoop_file (ls : List CLine) : ∀ (n : Nat) (c : Cfg), (∀ x ∈ ls, x.Ok) → (ls.flatMap CLine.args).length ≤ n →
    cfgLoop n (ls.flatMap CLine.args) c = .ok (ls.foldl CLine.apply c) := by
  induction ls with
  | nil => intro n c _ _; cases n <;> rfl
  | cons x ls ih =>
    intro n c h hn
    have hx := h x List.mem_cons_self
    have hr : ∀ y ∈ ls, y.Ok := fun y hy => h y (List.mem_cons_of_mem _ hy)
    rw [List.flatMap_cons] at hn ⊢
    rw [List.length_append] at hn
    rw [List.foldl_cons]
    cases x with
    | val l v =>
      obtain ⟨n, rfl⟩ : ∃ k, n = k + 1 := ⟨n - 1, by simp only [CLine.args, List.length_cons, List.length_nil] at hn; omega⟩
      show cfgLoop (n + 1) (l :: v :: ls.flatMap CLine.args) c = _
      rw [cfgLoop_cons, if_pos (val_known l hx.1)]
      exact ih n _ hr (by simp only [CLine.args, List.length_cons, List.length_nil] at hn; omega)
    | seq l vs =>
      obtain ⟨n, rfl⟩ : ∃ k, n = k + 1 := ⟨n - 1, by simp only [CLine.args, List.length_cons, List.length_nil] at hn; omega⟩
      show cfgLoop (n + 1) (l :: (vs ++ ls.flatMap CLine.args)) c = _
      have hs : seqLoop (vs ++ ls.flatMap CLine.args) = vs := seqLoop_append _ _ (fun v hv => (hx.2.2 v hv).2) (args_rest ls hr)
      obtain ⟨v, vs', rfl⟩ := List.exists_cons_of_ne_nil hx.2.1
      have hne := seq_notval l hx.1
      rw [cfgLoop_cons, if_neg hne.1, if_neg hne.2.1, if_pos hne.2.2]
      show cfgLoop n ((v :: vs' ++ ls.flatMap CLine.args).drop (seqLoop (v :: vs' ++ ls.flatMap CLine.args)).length) (c.addSeq l (seqLoop (v :: vs' ++ ls.flatMap CLine.args))) = _
      rw [hs, List.drop_left]
      exact ih n _ hr (by simp only [CLine.args, List.length_cons, List.length_nil] at hn; omega)
    | be =>
      obtain ⟨n, rfl⟩ : ∃ k, n = k + 1 := ⟨n - 1, by simp only [CLine.args, List.length_cons, List.length_nil] at hn; omega⟩
      show cfgLoop (n + 1) (sBe :: ls.flatMap CLine.args) c = _
      rw [cfgLoop_cons, if_neg be_not, if_pos rfl]
      exact ih n _ hr (by simp only [CLine.args, List.length_cons, List.length_nil] at hn; omega)
    | sp v =>
      obtain ⟨n, rfl⟩ : ∃ k, n = k + 1 := ⟨n - 1, by simp only [CLine.args, List.length_cons, List.length_nil] at hn; omega⟩
      show cfgLoop (n + 1) (sSp :: v :: ls.flatMap CLine.args) c = _
      rw [cfgLoop_cons, if_neg sp_not.1, if_neg sp_not.2.1, if_neg sp_not.2.2, if_pos rfl]
      exact ih n _ hr (by simp only [CLine.args, List.length_cons, List.length_nil] at hn; omega)
    | comment t => exact ih n c hr (by simpa [CLine.args] using hn)
    | blank => exact ih n c hr (by simpa [CLine.args] using hn)

theorem apply_val (l : Str) (ls : List CLine) (c : Cfg) :
    (ls.foldl CLine.apply c).val l = ((ls.filterMap (CLine.valOf l)).getLast?).or (c.val l) := by
  induction ls generalizing c with
  | nil => rfl
  | cons x ls ih =>
    rw [List.foldl_cons, ih, List.filterMap_cons]
    have aux : ∀ (v : Str), ((ls.filterMap (CLine.valOf l)).getLast?).or (some v) = ((v :: ls.filterMap (CLine.valOf l)).getLast?).or (c.val l) := by
      intro v
      cases hc : ls.filterMap (CLine.valOf l) with
      | nil => rfl
      | cons a r =>
        rw [List.getLast?_cons_cons, List.getLast?_eq_some_getLast (List.cons_ne_nil a r)]
        rfl
    cases x with
    | val l' v =>
      show ((ls.filterMap (CLine.valOf l)).getLast?).or (if l = l' then some v else c.val l) = _
      by_cases hl : l' = l
      · rw [if_pos hl.symm, show CLine.valOf l (.val l' v) = some v from if_pos hl]
        exact aux v
      · rw [if_neg (fun e => hl e.symm), show CLine.valOf l (.val l' v) = none from if_neg hl]
    | sp v =>
      show ((ls.filterMap (CLine.valOf l)).getLast?).or (if l = sSp then some v else c.val l) = _
      by_cases hl : sSp = l
      · rw [if_pos hl.symm, show CLine.valOf l (.sp v) = some v from if_pos hl]
        exact aux v
      · rw [if_neg (fun e => hl e.symm), show CLine.valOf l (.sp v) = none from if_neg hl]
    | seq l' vs => rfl
    | be => rfl
    | comment t => rfl
    | blank => rfl

theorem apply_seq (l : Str) (ls : List CLine) (c : Cfg) :
    (ls.foldl CLine.apply c).seq l = c.seq l ++ ls.flatMap (CLine.seqOf l) := by
  induction ls generalizing c with
  | nil => simp
  | cons x ls ih =>
    rw [List.foldl_cons, ih, List.flatMap_cons]
    cases x with
    | seq l' vs =>
      show (if l = l' then c.seq l ++ vs else c.seq l) ++ _ = _
      by_cases hl : l' = l
      · rw [if_pos hl.symm, show CLine.seqOf l (.seq l' vs) = vs from if_pos hl, List.append_assoc]
      · rw [if_neg (fun e => hl e.symm), show CLine.seqOf l (.seq l' vs) = [] from if_neg hl]; rfl
    | val l' v => rfl
    | sp v => rfl
    | be => rfl
    | comment t => rfl
    | blank => rfl

theorem apply_be (ls : List CLine) (c : Cfg) : (ls.foldl CLine.apply c).be = true ↔ c.be = true ∨ CLine.be ∈ ls := by
  induction ls generalizing c with
  | nil => simp
  | cons x ls ih =>
    rw [List.foldl_cons, ih, List.mem_cons]
    cases x with
    | be =>
      show true = true ∨ _ ↔ _
      simp
    | seq l' vs => show c.be = true ∨ _ ↔ _; simp
    | val l' v => show c.be = true ∨ _ ↔ _; simp
    | sp v => show c.be = true ∨ _ ↔ _; simp
    | comment t => show c.be = true ∨ _ ↔ _; simp
    | blank => show c.be = true ∨ _ ↔ _; simp

/-- **C221 (decoder).** From every well-formed configuration file (options with their values, comments and blank lines), the decoder takes for each
option the value of its last line, for each sequence the values of all its lines, and the flag `-be` if it occurs. -/
theorem C221_decoder (ls : List CLine) (h : ∀ x ∈ ls, x.Ok) : ∃ c, readCfg (some (cfgFile ls)) = .ok c ∧
    (∀ l, c.val l = (ls.filterMap (CLine.valOf l)).getLast?) ∧
    (∀ l, c.seq l = ls.flatMap (CLine.seqOf l)) ∧ (c.be = true ↔ CLine.be ∈ ls) := by
  refine ⟨ls.foldl CLine.apply Cfg.empty, ?_, ?_, ?_, ?_⟩
  · unfold readCfg
    rw [extract_file ls h]
    exact cfgLoop_file ls _ _ h (Nat.le_refl _)
  · intro l
    rw [apply_val]
    show Option.or _ none = _
    cases (ls.filterMap (CLine.valOf l)).getLast? <;> rfl
  · intro l
    rw [apply_seq]; rfl
  · rw [apply_be]
    show false = true ∨ _ ↔ _
    simp

/-- No value looks like an option. -/
def CLine.PlainVal : CLine → Prop
  | .val _ v => isOption v = false
  | .sp v => isOption v = false
  | _ => True

theorem readVal_skip (l a : Str) (r : List Str) (h : a ≠ l) : readVal l (a :: r) = readVal l r := by
  cases r with
  | nil => rfl
  | cons b r => rw [readVal_cons, if_neg h]

theorem readVal_skips (l : Str) (vs r : List Str) (h : l ∉ vs) : readVal l (vs ++ r) = readVal l r := by
  induction vs with
  | nil => rfl
  | cons v vs ih =>
    rw [List.cons_append, readVal_skip l v _ (fun e => h (by rw [e]; exact List.mem_cons_self)), ih (fun e => h (List.mem_cons_of_mem _ e))]

/-- **C221 (tools).** From the same file, `thot_ms_dec` and `thot_ms_alig` take for each option the value of its first line. -/
theorem C221_tools (ls : List CLine) (h : ∀ x ∈ ls, x.Ok) (hp : ∀ x ∈ ls, x.PlainVal) (l : Str) (hl : l ∈ oneValue) :
    ∃ args, extractPars hash (some (cfgFile ls)) = some args ∧ readVal l args = (ls.filterMap (CLine.valOf l)).head? := by
  refine ⟨_, extract_file ls h, ?_⟩
  have hlo := (labels_ok l (by simp [hl])).2.1
  induction ls with
  | nil => rfl
  | cons x ls ih =>
    have hx := h x List.mem_cons_self
    have hpx := hp x List.mem_cons_self
    have ih' := ih (fun y hy => h y (List.mem_cons_of_mem _ hy)) (fun y hy => hp y (List.mem_cons_of_mem _ hy))
    rw [List.flatMap_cons, List.filterMap_cons]
    have hv : ∀ v, isOption v = false → v ≠ l := fun v hv e => by rw [e, hlo] at hv; cases hv
    cases x with
    | val l' v =>
      show readVal l (l' :: v :: ls.flatMap CLine.args) = _
      rw [readVal_cons]
      by_cases hll : l' = l
      · rw [if_pos hll, show CLine.valOf l (.val l' v) = some v from if_pos hll]; rfl
      · rw [if_neg hll, show CLine.valOf l (.val l' v) = none from if_neg hll, readVal_skip l v _ (hv v hpx)]
        exact ih'
    | sp v =>
      show readVal l (sSp :: v :: ls.flatMap CLine.args) = _
      have hns : sSp ≠ l := fun e => sp_not.1 (e ▸ hl)
      rw [readVal_skip l sSp _ hns, readVal_skip l v _ (hv v hpx), show CLine.valOf l (.sp v) = none from if_neg hns]
      exact ih'
    | seq l' vs =>
      show readVal l (l' :: (vs ++ ls.flatMap CLine.args)) = _
      rw [readVal_skip l l' _ (fun e => (seq_notval l' hx.1).1 (e ▸ hl)), readVal_skips l vs _ (fun hm => hv l (hx.2.2 l hm).2 rfl)]
      exact ih'
    | be =>
      show readVal l (sBe :: ls.flatMap CLine.args) = _
      rw [readVal_skip l sBe _ (fun e => be_not (e ▸ hl))]
      exact ih'
    | comment t => exact ih'
    | blank => exact ih'

/-- The full property: the decoder and the tools give an option the same value. -/
def C221_full : Prop := ∀ (ls : List CLine), (∀ x ∈ ls, x.Ok) → (∀ x ∈ ls, x.PlainVal) → ∀ l ∈ oneValue, ∀ (c : Cfg) (args : List Str),
  readCfg (some (cfgFile ls)) = .ok c → extractPars hash (some (cfgFile ls)) = some args → readVal l args = c.val l

/-- **C221, what holds**: they agree on the options that are set at most once. -/
theorem C221_agree_partial (ls : List CLine) (h : ∀ x ∈ ls, x.Ok) (hp : ∀ x ∈ ls, x.PlainVal) (l : Str) (hl : l ∈ oneValue)
    (h1 : (ls.filterMap (CLine.valOf l)).length ≤ 1) (c : Cfg) (args : List Str) (hc : readCfg (some (cfgFile ls)) = .ok c)
    (ha : extractPars hash (some (cfgFile ls)) = some args) : readVal l args = c.val l := by
  obtain ⟨c', hc', hv, _⟩ := C221_decoder ls h
  obtain ⟨args', ha', hr⟩ := C221_tools ls h hp l hl
  rw [hc] at hc'
  injection hc' with hc'
  rw [ha] at ha'
  injection ha' with ha'
  rw [hc', hv, ha', hr]
  match hm : ls.filterMap (CLine.valOf l) with
  | [] => rfl
  | [a] => rfl
  | a :: b :: r => rw [hm] at h1; simp at h1

def exDup : List CLine := [.val "-W".toList "1".toList, .val "-W".toList "2".toList]

/-- False of the code: of two settings of an option the decoder takes the last one and the tools the first one. -/
theorem C221_counterexample : ¬ C221_full := by
  intro h
  have hok : ∀ x ∈ exDup, x.Ok := by
    intro x hx
    simp only [exDup, List.mem_cons, List.not_mem_nil, or_false] at hx
    rcases hx with rfl | rfl
    · exact ⟨by decide +kernel, by unfold Word; decide⟩
    · exact ⟨by decide +kernel, by unfold Word; decide⟩
  have hpl : ∀ x ∈ exDup, x.PlainVal := by
    intro x hx
    simp only [exDup, List.mem_cons, List.not_mem_nil, or_false] at hx
    rcases hx with rfl | rfl
    · show isOption _ = false; decide
    · show isOption _ = false; decide
  obtain ⟨c, hc, hv, _⟩ := C221_decoder exDup hok
  obtain ⟨args, ha, hr⟩ := C221_tools exDup hok hpl "-W".toList (by decide +kernel)
  have := h exDup hok hpl "-W".toList (by decide +kernel) c args hc ha
  rw [hv, hr] at this
  revert this
  decide +kernel

/-- `-sp` without a value reads past the end of the arguments; the other options report an error. -/
theorem C221_missing : readCfg (some "-sp\n".toList) = .undef ∧ readCfg (some "-tm\n".toList) = .error ∧ readCfg (some "-tmw\n".toList) = .error := by
  refine ⟨?_, ?_, ?_⟩
  · unfold readCfg
    rw [show extractPars hash (some "-sp\n".toList) = some [sSp] by decide +kernel]
    show cfgLoop (0 + 1) [sSp] Cfg.empty = _
    rw [cfgLoop_cons, if_neg sp_not.1, if_neg sp_not.2.1, if_neg sp_not.2.2, if_pos rfl]
  · unfold readCfg
    rw [show extractPars hash (some "-tm\n".toList) = some ["-tm".toList] by decide +kernel]
    show cfgLoop (0 + 1) ["-tm".toList] Cfg.empty = _
    rw [cfgLoop_cons, if_pos (by decide +kernel)]
  · unfold readCfg
    rw [show extractPars hash (some "-tmw\n".toList) = some ["-tmw".toList] by decide +kernel]
    show cfgLoop (0 + 1) ["-tmw".toList] Cfg.empty = _
    have hne := seq_notval "-tmw".toList (by decide +kernel)
    rw [cfgLoop_cons, if_neg hne.1, if_neg hne.2.1, if_pos hne.2.2]

end Thot.Opts
