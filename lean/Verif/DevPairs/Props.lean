import Verif.DevPairs.Model
import Verif.MathFuncs.Props

namespace Thot.DevPairs

/-! ## Extraction from the files (C321) -/

theorem loop_spec (cons : Sent → Sent → List Pair) : ∀ (ss ts : List Sent) (acc : List (List Pair)),
    loop cons ss ts acc = (decide (ss.length ≤ ts.length), acc ++ List.zipWith (extractOne cons) ss ts) := by
  intro ss
  induction ss with
  | nil => intro ts acc; simp [loop]
  | cons s ss ih =>
    intro ts acc
    cases ts with
    | nil => simp [loop]
    | cons t ts => simp [loop, ih, List.append_assoc]

/-- Spec: what a pair of lines gives. -/
def LinePairs (cons : Sent → Sent → List Pair) (s t : Sent) (r : List Pair) : Prop :=
  (s.length ≤ 100 ∧ t.length ≤ 100 → r = cons ("NULL" :: s) t) ∧ (100 < s.length ∨ 100 < t.length → r = [])

theorem extractOne_spec (cons : Sent → Sent → List Pair) (s t : Sent) : LinePairs cons s t (extractOne cons s t) := by
  have e : extractOne cons s t = if t.length < 101 ∧ s.length < 101 then cons ("NULL" :: s) t else [] := by
    have hm : maxSentenceLength = 101 := rfl
    simp [extractOne, fromAlig, ← hm]
  rw [e]
  constructor
  · intro h; rw [if_pos (by omega)]
  · intro h; rw [if_neg (by omega)]

/-- **C321 (partial).** If a file cannot be opened the result is an error and the output is left as it was. Otherwise
the extraction succeeds exactly if the target file has at least as many lines as the source file, and the output, also
after an error, has one list for each line number that both files have: the pairs of these two lines. Missing: a
target file with more lines than the source file is accepted. -/
theorem C321_files_partial (cons : Sent → Sent → List Pair) (prev : List (List Pair)) :
    (∀ (src trg : Option (List Sent)), src = none ∨ trg = none → extractCorpus cons src trg prev = (false, prev)) ∧
    ∀ (ss ts : List Sent),
      ((extractCorpus cons (some ss) (some ts) prev).1 = true ↔ ss.length ≤ ts.length) ∧
      (extractCorpus cons (some ss) (some ts) prev).2.length = min ss.length ts.length ∧
      ∀ (i : Nat) (s t : Sent), ss[i]? = some s → ts[i]? = some t →
        ∃ r, (extractCorpus cons (some ss) (some ts) prev).2[i]? = some r ∧ LinePairs cons s t r := by
  refine ⟨?_, ?_⟩
  · intro src trg h
    cases src with
    | none => rfl
    | some ss =>
      cases trg with
      | none => rfl
      | some ts => simp at h
  · intro ss ts
    have e : extractCorpus cons (some ss) (some ts) prev =
        (decide (ss.length ≤ ts.length), List.zipWith (extractOne cons) ss ts) := by
      simp [extractCorpus, loop_spec]
    rw [e]
    refine ⟨by simp, by simp, ?_⟩
    intro i s t hs ht
    exact ⟨extractOne cons s t, by simp [List.getElem?_zipWith, hs, ht], extractOne_spec cons s t⟩

/-- **C321, full statement:** files with different numbers of lines are refused. -/
def C321_full : Prop := ∀ (cons : Sent → Sent → List Pair) (ss ts : List Sent) (prev : List (List Pair)),
  ss.length ≠ ts.length → (extractCorpus cons (some ss) (some ts) prev).1 = false

theorem C321_counterexample : ¬ C321_full := by
  intro h
  have := h (fun _ _ => []) [["a"]] [["x"], ["y"]] [] (by decide)
  revert this; decide

example : extractCorpus (fun s t => [⟨s.tail, t⟩]) (some [["a"], ["b"]]) (some [["x"], ["y"]]) [[⟨[], []⟩]] =
    (true, [[⟨["a"], ["x"]⟩], [⟨["b"], ["y"]⟩]]) := by decide
example : extractCorpus (fun s t => [⟨s.tail, t⟩]) (some [["a"], ["b"]]) (some [["x"]]) [] =
    (false, [[⟨["a"], ["x"]⟩]]) := by decide
example : extractOne (fun s t => [⟨s.tail, t⟩]) (List.replicate 100 "a") ["x"] ≠ [] ∧
    extractOne (fun s t => [⟨s.tail, t⟩]) (List.replicate 101 "a") ["x"] = [] := by decide

/-! ## Filter and tuning set (C322, C323) -/

/-- Spec: a pair that may be kept: the sides are equal, or no word of a side is a category tag. -/
def Keepable (p : Pair) : Prop :=
  p.s = p.t ∨ ∀ (w : String), w ∈ p.s ∨ w ∈ p.t → w ≠ "<digit>" ∧ w ≠ "<number>" ∧ w ≠ "<alfanum>"

theorem pairOk_iff (p : Pair) : pairOk p = true ↔ Keepable p := by
  have hc : ∀ w : String, categs.contains w = true ↔ (w = "<digit>" ∨ w = "<number>" ∨ w = "<alfanum>") := by
    intro w; simp [categs]
  have ha : ∀ l : Sent, l.any categs.contains = true ↔ ∃ w ∈ l, (w = "<digit>" ∨ w = "<number>" ∨ w = "<alfanum>") := by
    intro l; simp only [List.any_eq_true, hc]
  unfold pairOk Keepable
  split
  · rename_i h
    rw [Bool.or_eq_true, ha, ha] at h
    rw [decide_eq_true_eq]
    constructor
    · exact Or.inl
    · rintro (h' | h')
      · exact h'
      · rcases h with ⟨w, hw, hw'⟩ | ⟨w, hw, hw'⟩
        · have := h' w (.inl hw); tauto
        · have := h' w (.inr hw); tauto
  · rename_i h
    rw [Bool.or_eq_true, ha, ha] at h
    simp only [true_iff]
    right
    intro w hw
    refine ⟨?_, ?_, ?_⟩ <;> intro e <;> apply h <;> rcases hw with hw | hw
    · exact .inl ⟨w, hw, .inl e⟩
    · exact .inr ⟨w, hw, .inl e⟩
    · exact .inl ⟨w, hw, .inr (.inl e)⟩
    · exact .inr ⟨w, hw, .inr (.inl e)⟩
    · exact .inl ⟨w, hw, .inr (.inr e)⟩
    · exact .inr ⟨w, hw, .inr (.inr e)⟩

theorem filterLoop_eq : ∀ (us acc : List Pair), filterLoop us acc = acc ++ us.filter pairOk := by
  intro us
  induction us with
  | nil => intro acc; simp [filterLoop]
  | cons p ps ih =>
    intro acc
    rw [filterLoop, ih]
    by_cases h : pairOk p = true <;> simp [h]

open Classical in
/-- **C322.** The filter gives the pairs of its input that may be kept, each as often as it occurs there and in the
same order, whatever the output held before; filtering again changes nothing. -/
theorem C322_filter (us prev : List Pair) :
    filterPairs us prev = us.filter (fun p => decide (Keepable p)) ∧
    (∀ p, p ∈ filterPairs us prev ↔ p ∈ us ∧ Keepable p) ∧ (filterPairs us prev).Sublist us ∧
    ∀ prev', filterPairs (filterPairs us prev) prev' = filterPairs us prev := by
  have e : ∀ (us prev : List Pair), filterPairs us prev = us.filter pairOk := by
    intro us prev; simp [filterPairs, filterLoop_eq]
  simp only [e]
  refine ⟨?_, ?_, List.filter_sublist, ?_⟩
  · congr 1; funext p
    rw [Bool.eq_iff_iff, decide_eq_true_eq]; exact pairOk_iff p
  · intro p; rw [List.mem_filter, pairOk_iff]
  · intro _; rw [List.filter_filter]; simp

example : filterPairs [⟨["a"], ["x"]⟩, ⟨["<digit>"], ["y"]⟩, ⟨["<digit>"], ["<digit>"]⟩, ⟨["a"], ["x"]⟩] [⟨["q"], []⟩] =
    [⟨["a"], ["x"]⟩, ⟨["<digit>"], ["<digit>"]⟩, ⟨["a"], ["x"]⟩] := by decide

/-- **C323.** The weights are tuned only if both development files open and the source file has at least as many lines
as the target file; then the tuning set has one list for each line of the target file: the pairs extracted with the
target line first that may be kept, in order. A line over the length limit has the empty list. -/
theorem C323_tuning (cons : Sent → Sent → List Pair) (srcFile trgFile : Option (List Sent)) :
    ((tuneSet cons srcFile trgFile).isSome = true ↔
      ∃ ss ts, srcFile = some ss ∧ trgFile = some ts ∧ ts.length ≤ ss.length) ∧
    ∀ (ss ts : List Sent) (r : List (List Pair)), srcFile = some ss → trgFile = some ts →
      tuneSet cons srcFile trgFile = some r →
        r.length = ts.length ∧
        ∀ (i : Nat) (s t : Sent), ss[i]? = some s → ts[i]? = some t → ∃ l u, r[i]? = some l ∧
          LinePairs cons t s u ∧ l.Sublist u ∧ (∀ p, p ∈ l ↔ p ∈ u ∧ Keepable p) ∧
          (100 < s.length ∨ 100 < t.length → l = []) := by
  have e : ∀ ss ts : List Sent, tuneSet cons (some ss) (some ts) =
      if ts.length ≤ ss.length then
        some ((List.zipWith (extractOne cons) ts ss).map fun us => us.filter pairOk) else none := by
    intro ss ts
    simp [tuneSet, extractCorpus, loop_spec, filterPairs, filterLoop_eq]
  constructor
  · cases srcFile with
    | none =>
      cases trgFile <;> simp [tuneSet, extractCorpus]
    | some ss =>
      cases trgFile with
      | none => simp [tuneSet, extractCorpus]
      | some ts =>
        rw [e]
        by_cases h : ts.length ≤ ss.length
        · simp [h]
        · simp [h]
  · intro ss ts r h1 h2 h
    subst h1; subst h2
    rw [e] at h
    split at h
    · rename_i hl
      obtain rfl := Option.some.inj h
      refine ⟨by simp [hl], ?_⟩
      intro i s t hs ht
      have sp := extractOne_spec cons t s
      refine ⟨(extractOne cons t s).filter pairOk, extractOne cons t s, ?_, sp, List.filter_sublist, ?_, ?_⟩
      · simp [List.getElem?_zipWith, hs, ht]
      · intro p; rw [List.mem_filter, pairOk_iff]
      · intro hlong
        rw [sp.2 (by tauto)]; rfl
    · cases h

example : tuneSet (fun s t => [⟨s.tail, t⟩, ⟨s.tail, ["<digit>"]⟩]) (some [["a"], ["b"]]) (some [["x"]]) =
    some [[⟨["x"], ["a"]⟩]] ∧
    tuneSet (fun s t => [⟨s.tail, t⟩]) (some [["a"]]) (some [["x"], ["y"]]) = none := by decide

/-! ## Features of a type (C324) -/

theorem getPtrs_spec {F G : Type} (cast : F → Option G) : ∀ (fs : List F) (i : Nat) (acc : List G × List Nat),
    (getPtrs cast fs i acc).1 = acc.1 ++ fs.filterMap cast ∧
    ∃ js : List Nat, (getPtrs cast fs i acc).2 = acc.2 ++ js ∧ js.length = (fs.filterMap cast).length ∧
      js.Pairwise (· < ·) ∧
      (∀ (j : Nat), j ∈ js ↔ i ≤ j ∧ ∃ f g, fs[j - i]? = some f ∧ cast f = some g) ∧
      ∀ (k j : Nat), js[k]? = some j → i ≤ j ∧ ∃ f, fs[j - i]? = some f ∧ cast f = (fs.filterMap cast)[k]? := by
  intro fs
  induction fs with
  | nil => intro i acc; exact ⟨by simp [getPtrs], [], by simp [getPtrs]⟩
  | cons f fs ih =>
    intro i acc
    rw [getPtrs]
    have step : ∀ j, i + 1 ≤ j → (f :: fs)[j - i]? = fs[j - (i + 1)]? := by
      intro j hj
      have : j - i = (j - (i + 1)) + 1 := by omega
      rw [this, List.getElem?_cons_succ]
    cases hc : cast f with
    | none =>
      obtain ⟨h1, js, h2, h3, h4, h5, h6⟩ := ih (i + 1) acc
      refine ⟨by simpa [hc] using h1, js, h2, by simpa [hc] using h3, h4, ?_, ?_⟩
      · intro j
        rw [h5]
        constructor
        · rintro ⟨hj, f', g, hf, hg⟩; exact ⟨by omega, f', g, by rw [step j hj]; exact hf, hg⟩
        · rintro ⟨hj, f', g, hf, hg⟩
          rcases Nat.eq_or_lt_of_le hj with e | e
          · subst e
            simp only [Nat.sub_self, List.getElem?_cons_zero, Option.some.injEq] at hf
            subst hf; rw [hc] at hg; cases hg
          · exact ⟨e, f', g, by rw [← step j e]; exact hf, hg⟩
      · intro k j hk
        obtain ⟨hj, f', hf, hg⟩ := h6 k j hk
        exact ⟨by omega, f', by rw [step j hj]; exact hf, by simpa [hc] using hg⟩
    | some g =>
      obtain ⟨h1, js, h2, h3, h4, h5, h6⟩ := ih (i + 1) (acc.1 ++ [g], acc.2 ++ [i])
      refine ⟨by simpa [hc] using h1, i :: js, by simpa using h2, by simp [hc, h3], ?_, ?_, ?_⟩
      · rw [List.pairwise_cons]
        exact ⟨fun j hj => ((h5 j).1 hj).1, h4⟩
      · intro j
        rw [List.mem_cons, h5]
        constructor
        · rintro (rfl | ⟨hj, f', g', hf, hg⟩)
          · exact ⟨le_rfl, f, g, by simp, hc⟩
          · exact ⟨by omega, f', g', by rw [step j hj]; exact hf, hg⟩
        · rintro ⟨hj, f', g', hf, hg⟩
          rcases Nat.eq_or_lt_of_le hj with e | e
          · exact .inl e.symm
          · exact .inr ⟨e, f', g', by rw [← step j e]; exact hf, hg⟩
      · intro k j hk
        cases k with
        | zero =>
          simp only [List.getElem?_cons_zero, Option.some.injEq] at hk
          subst hk
          exact ⟨le_rfl, f, by simp, by simp [hc]⟩
        | succ k =>
          rw [List.getElem?_cons_succ] at hk
          obtain ⟨hj, f', hf, hg⟩ := h6 k j hk
          exact ⟨by omega, f', by rw [step j hj]; exact hf, by simpa [hc] using hg⟩

/-- **C324.** Asking for the features of a type gives all of them in their order, and a list of as many positions, in
increasing order: exactly the positions of the features of that type, the `k`-th being the position of the `k`-th
feature returned. -/
theorem C324_features {F G : Type} (cast : F → Option G) (fs : List F) (gs : List G) (js : List Nat)
    (h : getPtrs cast fs 0 ([], []) = (gs, js)) :
    gs = fs.filterMap cast ∧ js.length = gs.length ∧ js.Pairwise (· < ·) ∧
    (∀ (j : Nat), j ∈ js ↔ ∃ f g, fs[j]? = some f ∧ cast f = some g) ∧
    ∀ (k j : Nat), js[k]? = some j → ∃ f g, fs[j]? = some f ∧ cast f = some g ∧ gs[k]? = some g := by
  obtain ⟨h1, js', h2, h3, h4, h5, h6⟩ := getPtrs_spec cast fs 0 ([], [])
  rw [h] at h1 h2
  simp only [List.nil_append] at h1 h2
  subst h1; subst h2
  refine ⟨rfl, h3, h4, ?_, ?_⟩
  · intro j; simpa using h5 j
  · intro k j hk
    obtain ⟨_, f, hf, hg⟩ := h6 k j hk
    have hlt : k < (fs.filterMap cast).length := by
      rw [← h3]; exact (List.getElem?_eq_some_iff.1 hk).1
    rw [List.getElem?_eq_getElem hlt] at hg ⊢
    exact ⟨f, _, by simpa using hf, hg, rfl⟩

example : getPtrs (fun n : Nat => if n % 2 = 0 then some (n / 2) else none) [4, 1, 6, 3] 0 ([], []) = ([2, 3], [0, 2]) := by
  decide

/-! ## Counts kept as logarithms (C325) -/

open Thot.MathFuncs

/-- A history of increments. -/
noncomputable def incrAll (x : Dbl) (ys : List ℝ) : Dbl := ys.foldl (fun x y => incrCount x (.fin y)) x

/-- **C325 (partial).** A count set from a positive `Count` and then incremented by any numbers that are not negative
is read back as their sum. Missing: a count set from a number is taken as the logarithm of the count. -/
theorem C325_logcount_partial (c : ℝ) (ys : List ℝ) (hc : 0 < c) (hy : ∀ y ∈ ys, 0 ≤ y) :
    getC (incrAll (setCount (.fin c)) ys) = .fin (c + ys.sum) := by
  have key : ∀ (ys : List ℝ) (c : ℝ), 0 < c → (∀ y ∈ ys, 0 ≤ y) →
      incrAll (lg c) ys = lg (c + ys.sum) ∧ 0 < c + ys.sum := by
    intro ys
    induction ys with
    | nil => intro c hc _; simp [incrAll, hc]
    | cons y ys ih =>
      intro c hc hy
      have h0 : 0 ≤ y := hy y (by simp)
      have hs : incrCount (lg c) (.fin y) = lg (c + y) := by
        unfold incrCount
        rw [log_fin h0]
        exact (C175_sum_partial c y hc.le h0 (by linarith)).1
      have := ih (c + y) (by linarith) (fun z hz => hy z (by simp [hz]))
      rw [List.sum_cons, ← add_assoc]
      refine ⟨?_, this.2⟩
      show incrAll (incrCount (lg c) (.fin y)) ys = _
      rw [hs]; exact this.1
  obtain ⟨k1, k2⟩ := key ys c hc hy
  unfold setCount
  rw [log_fin hc.le, k1, lg_pos k2]
  show Dbl.fin _ = _
  rw [Real.exp_log k2]

/-- **C325, full statement:** setting a positive number also sets the count that is read back. -/
def C325_full : Prop := ∀ c : ℝ, 0 < c → getC (setCountNum (.fin c)) = .fin c

theorem C325_counterexample : ¬ C325_full := by
  intro h
  have := h 1 one_pos
  unfold getC setCountNum at this
  have e : Real.exp 1 = 1 := Dbl.fin.inj this
  have := Real.add_one_lt_exp (one_ne_zero (α := ℝ))
  linarith

/-- The same count by its logarithm: `incr_logcount` of a logarithm is `incr_count` of the number. -/
theorem C325_logarithms (x : Dbl) (y : ℝ) (h : 0 ≤ y) : incrLogcount x (lg y) = incrCount x (.fin y) := by
  unfold incrLogcount incrCount; rw [log_fin h]

example : getC (incrAll (setCount (.fin 2)) [3, 0, 1]) = .fin 6 := by
  rw [C325_logcount_partial 2 [3, 0, 1] (by norm_num) (by intro y hy; simp at hy; rcases hy with h | h | h <;> rw [h] <;> norm_num)]
  norm_num

end Thot.DevPairs
