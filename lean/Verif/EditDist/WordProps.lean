import Verif.EditDist.WordTrace

namespace Thot.EditDist

theorem lastCharIsBlank_iff (s : Str) : StrProc.lastCharIsBlank s = true ↔ s.getLast? = some ' ' := by
  unfold StrProc.lastCharIsBlank
  rw [List.getLast?_eq_getElem?]
  by_cases h : s.length > 0
  · rw [if_pos h]
    split
    · rename_i h2; simp [h2]
    · rename_i h2; simp only [Bool.false_eq_true, false_iff]; exact h2
  · rw [if_neg h]
    have : s = [] := by simpa using h
    simp [this]

theorem splitLast_mark (y : List Str) : mark (splitLast y).1 (splitLast y).2 = prefWords y := by
  unfold splitLast prefWords
  cases h : y.getLast? with
  | none => simp [List.getLast?_eq_none_iff] at h; simp [h, mark]
  | some l =>
    simp only
    by_cases hb : l.getLast? = some ' '
    · rw [if_pos ((lastCharIsBlank_iff l).2 hb), if_pos hb]
      have : StrProc.removeLastBlank l = l.dropLast := by
        have hl : l.length > 0 := by
          cases l with
          | nil => simp at hb
          | cons => simp
        rw [List.getLast?_eq_getElem?] at hb
        unfold StrProc.removeLastBlank
        rw [if_pos hl, hb, List.dropLast_eq_take]
        rfl
      simp [mark, this]
    · rw [if_neg (fun h => hb ((lastCharIsBlank_iff l).1 h)), if_neg hb]
      simp [mark]

theorem splitLast_length (y : List Str) : (splitLast y).2.length = y.length := by
  unfold splitLast
  cases h : y.getLast? with
  | none => rfl
  | some l =>
    have : y ≠ [] := by intro h'; simp [h'] at h
    have : 0 < y.length := List.length_pos_iff.2 this
    simp only
    split <;> simp <;> omega

/-! ## C51: word-level edit distance -/

theorem gWP_D (k : Costs) (x y : List Str) (i j : Nat) : (gWP k x y).D i j = (gW k x y true false).D i j := by
  induction i generalizing j with
  | zero => induction j with
    | zero => rw [Grid.D, Grid.D]
    | succ j ih => rw [Grid.D, Grid.D, ih]; rfl
  | succ i ih => induction j with
    | zero => rw [Grid.D, Grid.D, ih]; rfl
    | succ j ihj => rw [Grid.D, Grid.D, ih, ih, ihj]; rfl

theorem wordEditDist_ok (k : Costs) (x y : List Str) :
    wordEditDist k x y = some ((gW k x y true false).D x.length y.length) := by
  obtain ⟨dm, h, hd⟩ := fillMatrix_ok (pureCell_implements (fun dm i j => cellWord_ok k x y dm i j)) (s := ()) trivial
  simp only [wordEditDist, addBlankCharacters, h, Option.bind_eq_bind, Option.bind_some,
    hd _ _ (Nat.le_refl _) (Nat.le_refl _), gWP_D]

/-- **C51.** The distance between two sentences is the least cost of a word-level script in which
inserting or deleting a word costs as much as its characters and replacing a word costs the
character-level edit distance of the two words. -/
theorem C51_word_distance_is_minimum (k : Costs) (x y : List Str) :
    ∃ d, wordEditDist k x y = some d ∧ WScript k x (y.map .full) d ∧
      ∀ c, WScript k x (y.map .full) c → d ≤ c := by
  refine ⟨_, wordEditDist_ok k x y, ?_, ?_⟩
  · obtain ⟨i', -, hi', hs⟩ := trace_wscript k x y true false x.length y.length (Nat.le_refl _) (Nat.le_refl _)
    rw [hi' (by simp)] at hs
    have : mark true y = y.map .full := rfl
    rw [this] at hs
    rwa [List.take_length, List.take_of_length_le (by simp)] at hs
  · intro c hc
    have := D_le_wscript hc false true (by simp) y x [] [] rfl rfl
    have h0 : (gW k x y true false).D ([] : List Str).length ([] : List PWord).length = 0 := by
      simp only [List.length_nil]; rw [Grid.D]
    rwa [h0, Rat.zero_add] at this

example : wordEditDist Costs.default ["the".toList, "house".toList] ["a".toList, "the".toList, "horse".toList] = some 2 := by
  decide +kernel

/-! ## C52: distance of a sentence to a user prefix -/

/-- **C52, full statement** (false of the code, see below). -/
def C52_full : Prop :=
  ∀ (k : Costs), 0 ≤ k.hit → 0 ≤ k.ins → 0 ≤ k.subst → 0 ≤ k.del → ∀ x y : List Str,
    ∃ d, wordPrefix k x y = some d ∧ (∃ x', x' <+: x ∧ WScript k x' (prefWords y) d) ∧
      ∀ x' c, x' <+: x → WScript k x' (prefWords y) c → d ≤ c

theorem wordPrefixAux_ok (k : Costs) (x y : List Str) (u : Bool) (ops0 : List Op) (hx : ∀ a ∈ x, ¬ prefTag <:+ a) :
    wordPrefixOpsAux k x y u ops0 =
      (charLevelOps k x (splitLast y).2 (splitLast y).1
        ((gW k x (splitLast y).2 (splitLast y).1 u).tr x.length y.length) ops0).map fun co =>
      ((gW k x (splitLast y).2 (splitLast y).1 u).D x.length y.length,
        recorded ((gW k x (splitLast y).2 (splitLast y).1 u).tr x.length y.length), co) := by
  have hl := splitLast_length y
  obtain ⟨dm, h, hd⟩ := fillMatrix_ok (cellWordPref_ok k x (splitLast y).2 (splitLast y).1 u hx) (cacheOk_nil k)
  have ht := traceLoop_ok (fun i j => cellWordPrefFresh_ok k x (splitLast y).2 (splitLast y).1 u hx dm i j) hd
    (x.length + y.length) x.length y.length (Nat.le_refl _) (by omega) (Nat.le_refl _)
  simp only [wordPrefixOpsAux, addBlankCharacters, h, Option.bind_eq_bind, Option.bind_some,
    obtainOperationsWordPref, ht, hd x.length y.length (Nat.le_refl _) (by omega)]
  cases charLevelOps k x (splitLast y).2 (splitLast y).1
        ((gW k x (splitLast y).2 (splitLast y).1 u).tr x.length y.length) ops0 <;> rfl

theorem charLevelOps_total (k : Costs) (x y : List Str) (lc u : Bool) (i j : Nat) :
    ∀ acc, i ≤ x.length → j ≤ y.length → ∃ co, charLevelOps k x y lc ((gW k x y lc u).tr i j) acc = some co := by
  induction i, j using (gW k x y lc u).tr_induct with
  | zero => intro acc _ _; exact ⟨acc, by rw [Grid.tr_zero]; rfl⟩
  | step i j h ih =>
    intro acc hi hj
    have hok := (gW k x y lc u).mv_ok i j h
    have hdec := Move.dec hok
    rw [Grid.tr_cons _ h]
    generalize hm : (gW k x y lc u).mv i j = m at *
    have ih := fun acc => ih acc (by omega) (by omega)
    rw [charLevelOps]
    split
    · rename_i hc
      simp only [Bool.and_eq_true, beq_iff_eq] at hc
      have hpi : m.pi i < x.length := by
        cases m with
        | pair => simp only [Move.ok, Move.pi] at hok ⊢; omega
        | ins => simp [Grid.op] at hc
        | del =>
          simp only [Grid.op, gW] at hc
          have : ∀ (p : Prop) [Decidable p], (if p then Op.prefDel else Op.del) ≠ Op.hit := by
            intro p _; split <;> simp
          exact absurd hc.2 (this _)
      obtain ⟨b, hb⟩ : ∃ b, y.getLast? = some b := by
        cases hl : y.getLast? with
        | none => simp [List.getLast?_eq_none_iff] at hl; simp [hl] at hc
        | some b => exact ⟨b, rfl⟩
      simp only [List.getElem?_eq_getElem hpi, hb]
      rw [strPrefixOps, strPrefixOpsAux_ok]
      exact ih _
    · exact ih _

theorem D_congr_takeW (k : Costs) (x y : List Str) (lc u : Bool) (m : Nat) (hm : m ≤ x.length) (i j : Nat) (hi : i ≤ m) :
    (gW k (x.take m) y lc u).D i j = (gW k x y lc u).D i j := by
  induction i generalizing j with
  | zero => induction j with
    | zero => rw [Grid.D, Grid.D]
    | succ j ih => rw [Grid.D, Grid.D, ih]; rfl
  | succ i ih =>
    have hx : (x.take m)[i]? = x[i]? := by rw [List.getElem?_take]; simp; omega
    have hp : ∀ j, (gW k (x.take m) y lc u).pair (i + 1) j = (gW k x y lc u).pair (i + 1) j := by
      intro j; simp [gW, hx]
    have hd : ∀ j, (gW k (x.take m) y lc u).del (i + 1) j = (gW k x y lc u).del (i + 1) j := by
      intro j; simp [gW, hx]
    induction j with
    | zero => rw [Grid.D, Grid.D, ih _ (by omega), hd]
    | succ j ihj => rw [Grid.D, Grid.D, ih _ (by omega), ih _ (by omega), ihj, hp, hd]; rfl

theorem D_pref_leW (k : Costs) (x y : List Str) (lc : Bool) (hy : y ≠ []) (i : Nat) (hi : i ≤ x.length) :
    (gW k x y lc true).D x.length y.length ≤ (gW k x y lc true).D i y.length := by
  obtain ⟨n, hn⟩ : ∃ n, x.length = i + n := ⟨x.length - i, by omega⟩
  rw [hn]
  clear hn hi
  induction n with
  | zero => exact Rat.le_refl
  | succ n ih =>
    have h2 := (gW k x y lc true).D_le .del (i + n + 1) y.length (by simp [Move.ok])
    have h3 : (gW k x y lc true).del (i + n + 1) y.length = 0 := by
      have : y.length ≠ 0 := by simpa using hy
      simp [gW, this]
    simp only [Move.pi, Move.pj, Nat.add_sub_cancel, Grid.cost, h3] at h2
    have : i + (n + 1) = i + n + 1 := rfl
    rw [this]
    grind

/-- The value of the grid is a lower bound of all scripts. -/
theorem D_min (k : Costs) (hk : 0 ≤ k.del) (x y : List Str) (hy : y ≠ []) {x' : List Str} {c : Score}
    (hx' : x' <+: x) (hc : WScript k x' (prefWords y) c) :
    (gW k x (splitLast y).2 (splitLast y).1 true).D x.length y.length ≤ c := by
  have hl := splitLast_length y
  have hne : (splitLast y).2 ≠ [] := by
    intro h; rw [h] at hl; apply hy; simpa using hl.symm
  have hlx : x'.length ≤ x.length := hx'.length_le
  have hx'eq : x' = x.take x'.length := List.prefix_iff_eq_take.1 hx'
  have h1 := D_le_wscript hc true (splitLast y).1 (fun _ => hk) (splitLast y).2 x' [] [] rfl
    (by rw [splitLast_mark]; rfl)
  have h0 : (gW k x' (splitLast y).2 (splitLast y).1 true).D ([] : List Str).length ([] : List PWord).length = 0 := by
    simp only [List.length_nil]; rw [Grid.D]
  rw [h0, Rat.zero_add] at h1
  have h2 := D_congr_takeW k x (splitLast y).2 (splitLast y).1 true x'.length hlx x'.length
    (splitLast y).2.length (Nat.le_refl _)
  rw [← hx'eq] at h2
  rw [h2] at h1
  rw [← hl]
  exact Rat.le_trans (D_pref_leW k x _ _ hne x'.length hlx) h1

/-- **C52 (partial).** For a non-empty prefix, a non-negative deletion cost and a sentence none of whose
words ends with `" pref"`, the distance of a sentence to a user prefix is the least cost of a
word-level script that turns some prefix of the sentence into it, where the last word of the user
prefix is compared as an incomplete word unless it ends with a blank.  Missing: the empty prefix
(`C52_empty_prefix`), and words that end with `" pref"`, which collide in the cost cache
(`C52_counterexample_cache`). -/
theorem C52_prefix_distance_partial (k : Costs) (hk : 0 ≤ k.del) (x y : List Str) (hy : y ≠ [])
    (hx : ∀ a ∈ x, ¬ " pref".toList <:+ a) :
    ∃ d, wordPrefix k x y = some d ∧ (∃ x', x' <+: x ∧ WScript k x' (prefWords y) d) ∧
      ∀ x' c, x' <+: x → WScript k x' (prefWords y) c → d ≤ c := by
  have hl := splitLast_length y
  have hne : (splitLast y).2 ≠ [] := by
    intro h; rw [h] at hl; apply hy; simpa using hl.symm
  obtain ⟨co, hco⟩ := charLevelOps_total k x (splitLast y).2 (splitLast y).1 true x.length y.length []
    (Nat.le_refl _) (by omega)
  refine ⟨_, by rw [wordPrefix, wordPrefixOps, wordPrefixAux_ok k x y true [] hx, hco]; rfl, ?_, ?_⟩
  · obtain ⟨i', -, -, hs⟩ := trace_wscript k x (splitLast y).2 (splitLast y).1 true x.length y.length
      (Nat.le_refl _) (by omega)
    refine ⟨x.take i', List.take_prefix _ _, ?_⟩
    rwa [splitLast_mark, List.take_of_length_le (l := prefWords y) (by rw [← splitLast_mark, length_mark]; omega)] at hs
  · intro x' c hx' hc
    exact D_min k hk x y hy hx' hc

/-- **C52.** Without free deletions (the variant used with word graphs) the whole sentence is turned
into the user prefix. -/
theorem C52_noPrefDel_partial (k : Costs) (x y : List Str) (hx : ∀ a ∈ x, ¬ " pref".toList <:+ a) :
    ∃ d, (wordPrefixOpsNoPrefDel k x y).map Prod.fst = some d ∧ WScript k x (prefWords y) d ∧
      ∀ c, WScript k x (prefWords y) c → d ≤ c := by
  have hl := splitLast_length y
  obtain ⟨co, hco⟩ := charLevelOps_total k x (splitLast y).2 (splitLast y).1 false x.length y.length []
    (Nat.le_refl _) (by omega)
  refine ⟨_, by rw [wordPrefixOpsNoPrefDel, wordPrefixAux_ok k x y false [] hx, hco]; rfl, ?_, ?_⟩
  · obtain ⟨i', -, hi', hs⟩ := trace_wscript k x (splitLast y).2 (splitLast y).1 false x.length y.length
      (Nat.le_refl _) (by omega)
    rw [hi' (by simp)] at hs
    rwa [splitLast_mark, List.take_of_length_le (l := prefWords y) (by rw [← splitLast_mark, length_mark]; omega), List.take_length] at hs
  · intro c hc
    have h1 := D_le_wscript hc false (splitLast y).1 (by simp) (splitLast y).2 x [] [] rfl
      (by rw [splitLast_mark]; rfl)
    have h0 : (gW k x (splitLast y).2 (splitLast y).1 false).D ([] : List Str).length ([] : List PWord).length = 0 := by
      simp only [List.length_nil]; rw [Grid.D]
    rw [h0, Rat.zero_add, hl] at h1
    exact h1

/-- The full statement fails for the empty prefix: deleting the sentence is charged. -/
theorem C52_counterexample : ¬ C52_full := by
  intro h
  obtain ⟨d, hd, -, hm⟩ := h .default (by decide) (by decide) (by decide) (by decide) ["a".toList] []
  have h1 : wordPrefix Costs.default ["a".toList] [] = some 1 := by decide +kernel
  rw [h1] at hd
  cases hd
  exact absurd (hm [] 0 List.nil_prefix .nil) (by decide)

/-- The values of the grid row by row. -/
def Grid.E0 (g : Grid) : Nat → Score
  | 0 => 0
  | j + 1 => g.E0 j + g.ins 0 (j + 1)

def Grid.En (g : Grid) (i : Nat) (prev : Nat → Score) : Nat → Score
  | 0 => prev 0 + g.del (i + 1) 0
  | j + 1 =>
    let m0 := prev j + g.pair (i + 1) (j + 1)
    let u := prev (j + 1) + g.del (i + 1) (j + 1)
    let l := g.En i prev j + g.ins (i + 1) (j + 1)
    let m1 := if u < m0 then u else m0
    if l < m1 then l else m1

def Grid.E (g : Grid) : Nat → Nat → Score
  | 0 => g.E0
  | i + 1 => g.En i (g.E i)

theorem Grid.D_eq_E (g : Grid) (i j : Nat) : g.D i j = g.E i j := by
  induction i generalizing j with
  | zero => induction j with
    | zero => rw [Grid.D]; rfl
    | succ j ih => rw [Grid.D, ih]; rfl
  | succ i ih => induction j with
    | zero => rw [Grid.D, ih]; rfl
    | succ j ihj => rw [Grid.D, ih, ih, ihj]; rfl

/-- The cache of substitution costs mixes up the words `b` and `b pref`: the distance of the sentence
`b`, `b pref`, `qqqqqqq`, `b` to the prefix `b`, `qqqqqqq`, `b` comes out as 1, although no script costs less
than 6. -/
theorem C52_counterexample_cache :
    let x := ["b".toList, "b pref".toList, "qqqqqqq".toList, "b".toList]
    let y := ["b".toList, "qqqqqqq".toList, "b".toList]
    wordPrefix Costs.default x y = some 1 ∧
      ∀ x' c, x' <+: x → WScript Costs.default x' (prefWords y) c → 6 ≤ c := by
  intro x y
  refine ⟨by decide +kernel, ?_⟩
  intro x' c hx' hc
  have := D_min Costs.default (by decide) x y (by simp [y]) hx' hc
  have h6 : (gW Costs.default x (splitLast y).2 (splitLast y).1 true).D x.length y.length = 6 := by
    rw [Grid.D_eq_E]
    decide +kernel
  rwa [h6] at this

example : wordPrefix Costs.default ["the".toList, "house".toList, "is".toList, "red".toList]
    ["the".toList, "hor".toList] = some 1 := by decide +kernel

/-! ## C53: correction of a word given its beginning -/

/-- **C53, full statement** (false of the code for a zero deletion cost, see below): correcting a word
with the operations of its distance to the beginning typed by the user yields that beginning followed
by the end of the word. -/
def C53_full : Prop :=
  ∀ (k : Costs), 0 ≤ k.hit → 0 ≤ k.ins → 0 ≤ k.subst → 0 ≤ k.del → ∀ word pref : Str,
    ∃ d ops s, strPrefixOps k word pref = some (d, ops) ∧ s <:+ word ∧
      correctWordGivenPrefOps ops word pref = some (pref ++ s)

theorem correctWord_runs {o : List Op} {w p : Str} (h : Runs o w p) (w' p' : Str) :
    correctWordLoop o (w ++ w') (p ++ p') = some (p ++ w') := by
  induction h with
  | nil => rfl
  | hit a _ ih => simp [correctWordLoop, ih]
  | subst a b _ _ ih => simp [correctWordLoop, ih]
  | ins b _ ih => simp [correctWordLoop, ih]
  | del a _ ih => simp [correctWordLoop, ih]

/-- **C53 (partial).** For a non-zero deletion cost, correcting a word with the operations of its
distance to the beginning typed by the user yields that beginning followed by the end of the word.
Missing: a deletion cost of zero, for which the code records no deletions (`C53_counterexample`). -/
theorem C53_correct_word_partial (k : Costs) (hk : k.del ≠ 0) (word pref : Str) :
    ∃ d ops s, strPrefixOps k word pref = some (d, ops) ∧ s <:+ word ∧
      correctWordGivenPrefOps ops word pref = some (pref ++ s) := by
  obtain ⟨d, ops, x', h1, ⟨s, hs⟩, h2, -⟩ := C32_operations_partial k hk word pref
  refine ⟨d, ops, s, h1, ⟨x', hs⟩, ?_⟩
  have := correctWord_runs h2 s []
  rw [List.append_nil, hs] at this
  exact this

/-- With a zero deletion cost the correction of `axb` given `ab` is `axb`. -/
theorem C53_counterexample : ¬ C53_full := by
  intro h
  obtain ⟨d, ops, s, h1, -, h2⟩ := h ⟨0, 1, 1, 0⟩ (by decide) (by decide) (by decide) (by decide)
    "axb".toList "ab".toList
  have h3 : strPrefixOps ⟨0, 1, 1, 0⟩ "axb".toList "ab".toList = some (0, [.hit, .hit]) := by decide +kernel
  rw [h3] at h1
  cases h1
  have h4 : correctWordGivenPrefOps [.hit, .hit] "axb".toList "ab".toList = some ("axb".toList) := by decide +kernel
  rw [h4] at h2
  have := congrArg (Option.map (List.take 2)) h2
  simp at this

example : correctWordGivenPrefOps [.hit, .subst] "house".toList "ha".toList = some "hause".toList := by
  decide +kernel

/-! ## C54: correction of a sentence given a user prefix -/

/-- `r` completes the user prefix `pref` with the words `s`, after `x'` was corrected into the prefix at
cost `d`: all words of the prefix but the last are there unchanged, then a word that starts with the
last word of the prefix (or, if that word ends with blanks, is that word without them), then `s`. -/
def CompletesWith (k : Costs) (d : Score) (pref x' s r : List Str) : Prop :=
  WScript k x' (prefWords pref) d ∧
  ∃ l w, pref.getLast? = some l ∧ r = pref.dropLast ++ w :: s ∧
    (l.getLast? ≠ some ' ' → l <+: w) ∧
    (l.getLast? = some ' ' → ∃ n, 0 < n ∧ l = w ++ List.replicate n ' ' ∧ w.getLast? ≠ some ' ')

/-- `r` completes the user prefix with the end of the sentence `x`: the words that are left after a
beginning of `x` that can be turned into the prefix at cost `d`. -/
def Completes (k : Costs) (d : Score) (pref x r : List Str) : Prop :=
  ∃ x' s, x = x' ++ s ∧ CompletesWith k d pref x' s r

/-- **C54, full statement** (false of the code for a zero deletion cost, see below). -/
def C54_full : Prop :=
  ∀ (k : Costs), 0 ≤ k.hit → 0 ≤ k.ins → 0 ≤ k.subst → 0 ≤ k.del → ∀ x pref : List Str,
    (∀ a ∈ x, a ≠ [] ∧ ' ' ∉ a) → (∀ p ∈ pref, p ≠ []) → (∀ p ∈ pref.dropLast, ' ' ∉ p) → pref ≠ [] →
    ∃ r d, correctStrGivenPref k x pref = some r ∧ wordPrefix k x pref = some d ∧ Completes k d pref x r

theorem endsBlank_of {p : Str} (h0 : p ≠ []) (h : p.getLast? ≠ some ' ') : endsBlank p = some false := by
  unfold endsBlank
  cases hl : p.getLast? with
  | none => simp [List.getLast?_eq_none_iff] at hl; exact absurd hl h0
  | some c => simp; intro hc; rw [hl, hc] at h; exact h rfl

theorem correctStr_align {o : List Op} {x1 y1 : List Str} (h : Align o x1 y1) (co : List Op) (lasty : Str)
    (o' : List Op) (x2 y2 : List Str) (hy1 : ∀ p ∈ y1, p ≠ [] ∧ p.getLast? ≠ some ' ') (hy2 : y2 ≠ []) :
    correctStrLoop co lasty (o ++ o') (x1 ++ x2) (y1 ++ y2) =
      (correctStrLoop co lasty o' x2 y2).map (y1 ++ ·) := by
  have hemp : ∀ y : List Str, (y ++ y2).isEmpty = false := by
    intro y; simp [hy2]
  induction h with
  | nil => cases h : correctStrLoop co lasty o' x2 y2 <;> simp [h]
  | hit a b _ ih =>
    have ih := ih (fun p hp => hy1 p (List.mem_cons_of_mem _ hp))
    simp only [List.cons_append, correctStrLoop, List.head?_cons, List.tail_cons, ih, hemp, corrHit]
    cases correctStrLoop co lasty o' x2 y2 <;> simp
  | subst a b _ ih =>
    have ih := ih (fun p hp => hy1 p (List.mem_cons_of_mem _ hp))
    simp only [List.cons_append, correctStrLoop, List.tail_cons, ih, hemp, corrSubst]
    cases correctStrLoop co lasty o' x2 y2 <;> simp
  | ins b _ ih =>
    have hb := hy1 b List.mem_cons_self
    have ih := ih (fun p hp => hy1 p (List.mem_cons_of_mem _ hp))
    simp only [List.cons_append, correctStrLoop, ih, corrIns, endsBlank_of hb.1 hb.2]
    cases correctStrLoop co lasty o' x2 y2 <;> simp
  | del a _ ih =>
    have ih := ih hy1
    simp only [List.cons_append, correctStrLoop, List.tail_cons, ih]

theorem correctStr_dels (co : List Op) (lasty : Str) (n : Nat) (x y : List Str) :
    correctStrLoop co lasty (List.replicate n .del) x y = some (x.drop n) := by
  induction n generalizing x with
  | zero => rfl
  | succ n ih => rw [List.replicate_succ, correctStrLoop, ih]; simp

theorem stripBlanks_spec (l : Str) (h : l.getLast? = some ' ') :
    ∃ n, 0 < n ∧ l = stripBlanks l ++ List.replicate n ' ' ∧ (stripBlanks l).getLast? ≠ some ' ' := by
  have key : ∀ r : Str, ∃ n, r = List.replicate n ' ' ++ r.dropWhile (· == ' ') ∧
      (r.dropWhile (· == ' ')).head? ≠ some ' ' ∧ (r.head? = some ' ' → 0 < n) := by
    intro r
    induction r with
    | nil => exact ⟨0, rfl, by simp, by simp⟩
    | cons c r ih =>
      by_cases hc : c = ' '
      · subst hc
        obtain ⟨n, h1, h2, -⟩ := ih
        refine ⟨n + 1, ?_, ?_, fun _ => by omega⟩
        · simp only [List.dropWhile_cons, beq_self_eq_true, if_true, List.replicate_succ, List.cons_append]
          rw [← h1]
        · simpa using h2
      · refine ⟨0, ?_, ?_, ?_⟩
        · simp [hc]
        · simp [hc]
        · simp [hc]
  obtain ⟨n, h1, h2, h3⟩ := key l.reverse
  refine ⟨n, h3 (by simpa using h), ?_, ?_⟩
  · unfold stripBlanks
    have := congrArg List.reverse h1
    simpa using this
  · unfold stripBlanks
    simpa using h2

theorem correct_aux (k : Costs) (u : Bool) (x pref : List Str) (hd : ∀ a ∈ x, wordDelCost k a ≠ 0)
    (hk : k.del ≠ 0) (hx : ∀ a ∈ x, ¬ prefTag <:+ a) (hp : ∀ p ∈ pref, p ≠ [])
    (hp2 : ∀ p ∈ pref.dropLast, p.getLast? ≠ some ' ') (hne : pref ≠ []) :
    ∃ t r, wordPrefixOpsAux k x pref u [] = some t ∧ correctStrGivenPrefOps t.2.1 t.2.2 x pref = some r ∧
      Completes k t.1 pref x r ∧ (u = false → CompletesWith k t.1 pref x [] r) := by
  obtain ⟨l, hl⟩ : ∃ l, pref.getLast? = some l := by
    cases h : pref.getLast? with
    | none => simp [List.getLast?_eq_none_iff] at h; exact absurd h hne
    | some l => exact ⟨l, rfl⟩
  have hpref : pref = pref.dropLast ++ [l] := by
    obtain ⟨ys, hys⟩ := List.getLast?_eq_some_iff.1 hl
    rw [hys]; simp
  have hlne : l ≠ [] := hp l (List.mem_of_getLast? hl)
  have hlen := splitLast_length pref
  have hpos : 0 < pref.length := List.length_pos_iff.2 hne
  have hsl := charLevelOps_total k x (splitLast pref).2 (splitLast pref).1 u x.length pref.length []
    (Nat.le_refl _) (by omega)
  obtain ⟨co, hco⟩ := hsl
  have hlc := trace_lastCol k x (splitLast pref).2 (splitLast pref).1 u hd [] (by omega) x.length (Nat.le_refl _)
  rw [hlen, hco] at hlc
  obtain ⟨⟨rest, last, nd, i1, hops, hi1, hal, hlast⟩⟩ := hlc
  have hinit : (splitLast pref).2.take (pref.length - 1) = pref.dropLast := by
    unfold splitLast
    rw [hl]
    simp only
    split <;> simp [List.length_dropLast]
  rw [hlen, hinit] at hal
  have haux := wordPrefixAux_ok k x pref u [] hx
  obtain ⟨hcon, hfull, hws⟩ := trace_consumed k x (splitLast pref).2 (splitLast pref).1 u hd x.length pref.length
    (Nat.le_refl _) (by omega)
  have htk : (prefWords pref).take pref.length = prefWords pref :=
    List.take_of_length_le (by rw [← splitLast_mark, length_mark]; omega)
  rw [splitLast_mark, htk] at hws
  rw [hops, consumed_append, hal.consumed_eq, List.length_take, Nat.min_eq_left hi1] at hws hcon hfull
  rw [hco, hops, Option.map_some] at haux
  suffices hsuff : ∃ r, correctStrGivenPrefOps (rest ++ last :: List.replicate nd .del) co x pref = some r ∧
      ∃ l w, pref.getLast? = some l ∧
        r = pref.dropLast ++ w :: x.drop (i1 + consumed (last :: List.replicate nd .del)) ∧
        (l.getLast? ≠ some ' ' → l <+: w) ∧
        (l.getLast? = some ' ' → ∃ n, 0 < n ∧ l = w ++ List.replicate n ' ' ∧ w.getLast? ≠ some ' ') by
    obtain ⟨r, h1, h2⟩ := hsuff
    refine ⟨_, r, haux, h1, ⟨_, _, (List.take_append_drop _ x).symm, hws, h2⟩, ?_⟩
    rintro rfl
    have hf := hfull (by simp)
    rw [hf, List.drop_length] at h2
    rw [hf, List.take_length] at hws
    exact ⟨hws, h2⟩
  -- `lasty`
  have hlasty : lastyOf pref = some (if l.getLast? = some ' ' then stripBlanks l else l) := by
    unfold lastyOf
    rw [hl]
    simp only
    by_cases hb : l.getLast? = some ' '
    · simp [endsBlank, hb]
    · rw [endsBlank_of hlne hb]; simp [hb]
  simp only [correctStrGivenPrefOps, hlasty, Option.bind_eq_bind, Option.bind_some]
  generalize hL : (if l.getLast? = some ' ' then stripBlanks l else l) = lasty
  have hmain : ∀ o', correctStrLoop co lasty (rest ++ o') x pref =
      (correctStrLoop co lasty o' (x.drop i1) [l]).map (pref.dropLast ++ ·) := by
    intro o'
    have := correctStr_align hal co lasty o' (x.drop i1) [l]
      (fun p hp' => ⟨hp p ((List.dropLast_sublist _).subset hp'), hp2 p hp'⟩) (by simp)
    rw [List.take_append_drop, ← hpref] at this
    exact this
  rw [hmain]
  -- the word pushed for the last word of the prefix
  have hw : ∀ w, (w = lasty ∨ (l.getLast? ≠ some ' ' ∧ l <+: w)) →
      (l.getLast? ≠ some ' ' → l <+: w) ∧
      (l.getLast? = some ' ' → ∃ n, 0 < n ∧ l = w ++ List.replicate n ' ' ∧ w.getLast? ≠ some ' ') := by
    intro w hw
    constructor
    · intro hb
      rcases hw with hw | hw
      · rw [hw, ← hL, if_neg hb]; exact List.prefix_rfl
      · exact hw.2
    · intro hb
      rcases hw with hw | hw
      · rw [hw, ← hL, if_pos hb]; exact stripBlanks_spec l hb
      · exact absurd hb hw.1
  have hb2 : ∃ b, endsBlank l = some b ∧ (b = true ↔ l.getLast? = some ' ') := by
    by_cases hb : l.getLast? = some ' '
    · exact ⟨true, by simp [endsBlank, hb], by simp [hb]⟩
    · exact ⟨false, endsBlank_of hlne hb, by simp [hb]⟩
  obtain ⟨b, hbe, hbi⟩ := hb2
  have hlasty' : (if b = true then lasty else l) = lasty := by
    by_cases hb : b = true
    · simp [hb]
    · rw [if_neg hb, ← hL, if_neg (fun h => hb (hbi.2 h))]
  rcases hlast with ⟨rfl, -⟩ | ⟨rfl, -, hlt⟩ | ⟨rfl, hlt, h1, h2⟩
  · rw [correctStrLoop, corrIns, hbe, correctStr_dels]
    simp only [Option.map_some, Option.bind_eq_bind, Option.bind_some, hlasty']
    rw [show consumed (Op.ins :: List.replicate nd .del) = nd by simp [consumed]]
    rw [List.drop_drop]
    exact ⟨_, rfl, l, lasty, hl, rfl, hw _ (Or.inl rfl)⟩
  · rw [correctStrLoop, corrSubst, hbe, correctStr_dels]
    simp only [List.isEmpty_nil, if_true, Option.map_some, Option.bind_eq_bind, Option.bind_some, hlasty']
    rw [show consumed (Op.subst :: List.replicate nd .del) = 1 + nd by simp [consumed]; omega]
    rw [← List.drop_one, List.drop_drop, List.drop_drop]
    exact ⟨_, rfl, l, lasty, hl, rfl, hw _ (Or.inl rfl)⟩
  · have hxd : (x.drop i1).tail = x.drop (i1 + 1) := by simp
    rw [show consumed (Op.hit :: List.replicate nd .del) = 1 + nd by simp [consumed]; omega, ← Nat.add_assoc]
    by_cases hb : b = true
    · rw [correctStrLoop, correctStr_dels, hxd]
      simp only [corrHit, hbe, hb, List.isEmpty_nil, if_true, Option.map_some, Option.bind_eq_bind, Option.bind_some]
      rw [List.drop_drop]
      exact ⟨_, rfl, l, lasty, hl, rfl, hw _ (Or.inl rfl)⟩
    · have hb' : b = false := by simpa using hb
      have hnb : l.getLast? ≠ some ' ' := fun h => hb (hbi.2 h)
      have hlc : (splitLast pref).1 = false := by
        unfold splitLast
        rw [hl]
        simp only
        rw [if_neg (fun h => hnb ((lastCharIsBlank_iff l).1 h))]
      obtain ⟨a, b2, ha, hb2, hcc⟩ := h2 hlc
      have hb2l : b2 = l := by
        have : (splitLast pref).2 = pref := by
          unfold splitLast
          rw [hl]
          simp only
          rw [if_neg (fun h => hnb ((lastCharIsBlank_iff l).1 h))]
          exact hpref.symm
        rw [this, hl] at hb2
        exact (Option.some.inj hb2).symm
      subst hb2l
      obtain ⟨d, ops, s, hs1, -, hs3⟩ := C53_correct_word_partial k hk a b2
      rw [hs1] at hcc
      simp only [Option.map_some, Option.some.injEq] at hcc
      subst hcc
      have hh : (x.drop i1).head? = some a := by rw [List.head?_drop]; exact ha
      rw [correctStrLoop, correctStr_dels, hxd]
      simp only [corrHit, hbe, hb', List.isEmpty_nil, if_true, hh, hs3, Option.map_some, Option.bind_eq_bind,
        Option.bind_some]
      rw [List.drop_drop]
      exact ⟨_, rfl, b2, _, hl, rfl, hw _ (Or.inr ⟨hnb, List.prefix_append _ _⟩)⟩

theorem wordDelCost_ne {k : Costs} (hk : k.del ≠ 0) {a : Str} (ha : a ≠ []) : wordDelCost k a ≠ 0 := by
  unfold wordDelCost
  have : (a.length : Rat) ≠ 0 := by
    have : a.length ≠ 0 := by simpa using ha
    exact_mod_cast this
  intro h
  rcases Rat.mul_eq_zero.1 h with h | h
  · exact hk h
  · exact this h

/-- **C54 (partial).** For a non-zero deletion cost, a sentence of non-empty words none of which ends
with `" pref"`, and a non-empty prefix of non-empty words of which only the last may end with a blank,
the corrected sentence completes the prefix with the end of the sentence, starting after the words
matched by the distance (which is the least possible one, C52).  Missing: a zero deletion cost
(`C54_counterexample`). -/
theorem C54_correct_sentence_partial (k : Costs) (hk : k.del ≠ 0) (x pref : List Str)
    (hx0 : ∀ a ∈ x, a ≠ []) (hx : ∀ a ∈ x, ¬ " pref".toList <:+ a) (hp : ∀ p ∈ pref, p ≠ [])
    (hp2 : ∀ p ∈ pref.dropLast, p.getLast? ≠ some ' ') (hne : pref ≠ []) :
    ∃ r d, correctStrGivenPref k x pref = some r ∧ wordPrefix k x pref = some d ∧ Completes k d pref x r := by
  obtain ⟨t, r, h1, h2, h3, -⟩ := correct_aux k true x pref (fun a ha => wordDelCost_ne hk (hx0 a ha)) hk hx hp hp2 hne
  exact ⟨r, t.1, by simp only [correctStrGivenPref, wordPrefixOps, h1, Option.bind_eq_bind, Option.bind_some, h2],
    by simp only [wordPrefix, wordPrefixOps, h1, Option.map_some], h3⟩

/-- **C54 (partial).** The corrector used with word graphs corrects the whole sentence into the prefix
and leaves nothing after it. -/
theorem C54_correct_sentence_wg_partial (k : Costs) (hk : k.del ≠ 0) (x pref : List Str)
    (hx0 : ∀ a ∈ x, a ≠ []) (hx : ∀ a ∈ x, ¬ " pref".toList <:+ a) (hp : ∀ p ∈ pref, p ≠ [])
    (hp2 : ∀ p ∈ pref.dropLast, p.getLast? ≠ some ' ') (hne : pref ≠ []) :
    ∃ r d, correctStrGivenPrefWg k x pref = some r ∧ (wordPrefixOpsNoPrefDel k x pref).map Prod.fst = some d ∧
      CompletesWith k d pref x [] r := by
  obtain ⟨t, r, h1, h2, -, h3⟩ := correct_aux k false x pref (fun a ha => wordDelCost_ne hk (hx0 a ha)) hk hx hp hp2 hne
  exact ⟨r, t.1, by simp only [correctStrGivenPrefWg, wordPrefixOpsNoPrefDel, h1, Option.bind_eq_bind, Option.bind_some, h2],
    by simp only [wordPrefixOpsNoPrefDel, h1, Option.map_some], h3 rfl⟩

/-- With a zero deletion cost the correction of `a x b` given `a b` is `a x b`. -/
theorem C54_counterexample : ¬ C54_full := by
  intro h
  obtain ⟨r, d, hr, -, x', s, -, -, l, w, hl, hr2, hw, -⟩ := h ⟨0, 1, 1, 0⟩ (by decide) (by decide) (by decide) (by decide)
    ["a".toList, "x".toList, "b".toList] ["a".toList, "b".toList] (by simp) (by simp) (by simp) (by simp)
  have h1 : correctStrGivenPref ⟨0, 1, 1, 0⟩ ["a".toList, "x".toList, "b".toList] ["a".toList, "b".toList] =
      some ["a".toList, "x".toList, "b".toList] := by decide +kernel
  rw [h1] at hr
  cases hr
  simp at hl hr2
  subst hl
  obtain ⟨rfl, -⟩ := hr2
  exact absurd (hw (by decide)) (by decide)

example : correctStrGivenPref Costs.default ["the".toList, "house".toList, "is".toList, "red".toList]
    ["the".toList, "hou".toList] = some ["the".toList, "house".toList, "is".toList, "red".toList] := by
  decide +kernel

/-- **C54.** With an empty prefix the corrector returns the empty sentence: all the words are deleted,
instead of being kept. -/
theorem C54_empty_prefix (k : Costs) (x : List Str) (hx : ∀ a ∈ x, ¬ " pref".toList <:+ a) :
    correctStrGivenPref k x [] = some [] := by
  have htr : ∀ i, recorded ((gW k x [] true true).tr i 0) = List.replicate i .del := by
    intro i
    induction i with
    | zero => rw [Grid.tr_zero]; rfl
    | succ i ih =>
      have hm : (gW k x [] true true).mv (i + 1) 0 = .del := rfl
      have hop : (gW k x [] true true).delOp (i + 1) 0 = .del := by simp [gW]
      rw [Grid.tr_cons _ (Or.inl (by omega)), hm]
      simp only [Move.pi, Move.pj, Grid.op, Nat.add_sub_cancel]
      rw [recorded_cons, ih, hop, List.replicate_succ']
      rfl
  obtain ⟨co, hco⟩ := charLevelOps_total k x [] true true x.length 0 [] (Nat.le_refl _) (Nat.le_refl _)
  have h := wordPrefixAux_ok k x [] true [] hx
  have hs : splitLast ([] : List Str) = (true, []) := rfl
  simp only [hs, List.length_nil, hco, htr, Option.map_some] at h
  simp only [correctStrGivenPref, wordPrefixOps, h, Option.bind_eq_bind, Option.bind_some, correctStrGivenPrefOps,
    lastyOf, List.getLast?_nil, correctStr_dels, List.drop_length]

end Thot.EditDist
