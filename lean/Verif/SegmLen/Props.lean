import Verif.SegmLen.Model
import Verif.AligFile.Giza
import Verif.Common.Sum
/-! C176, C177: table with the number of segments. -/
namespace Thot.SegmLen

open Thot.Awk (Str)
open Thot.Vocab (showNat atoi)
open Thot.SentHandler (Word Line text joinWords)
open Thot.Sum

/-- The entries of a file: sentence length, number of segments, count. -/
abbrev Entry := Nat × Nat × Rat

/-- The file with the given entries, one line each. -/
def fileOf (fmt : Rat → Str) (es : List Entry) : Str := text (es.map fun e => joinWords [showNat e.1, showNat e.2.1, fmt e.2.2])

/-- The count of the last entry for the given lengths. -/
def lastVal (es : List Entry) (i j : Nat) : Option Rat := (es.reverse.find? fun e => e.1 == i && e.2.1 == j).map (·.2.2)

/-- The sum of the counts of the entries for a sentence length (numbers of segments above 100 are left out). -/
def total (es : List Entry) (i : Nat) : Rat := sumBy (fun e : Entry => if e.1 = i ∧ e.2.1 ≤ 100 then e.2.2 else 0) es

/-- The entries can be written and read back: the indices are numbers of type `int`, and the text of a count is a word that `atof` reads. -/
def Readable (atof : Str → Rat) (fmt : Rat → Str) (es : List Entry) : Prop :=
  ∀ e ∈ es, e.1 < 2 ^ 31 ∧ e.2.1 < 2 ^ 31 ∧ Word (fmt e.2.2) ∧ atof (fmt e.2.2) = e.2.2

theorem lastVal_cons (e : Entry) (es : List Entry) (i j : Nat) :
    lastVal (e :: es) i j = (lastVal es i j).or (if e.1 = i ∧ e.2.1 = j then some e.2.2 else none) := by
  unfold lastVal
  rw [List.reverse_cons, List.find?_append]
  cases es.reverse.find? fun e => e.1 == i && e.2.1 == j with
  | some a => rfl
  | none =>
    by_cases h : e.1 = i ∧ e.2.1 = j
    · simp [h]
    · simp only [Option.map_none, Option.none_or, if_neg h]
      rw [List.find?_cons_of_neg (by simpa using h)]; rfl

theorem line_entry {atof : Str → Rat} {fmt : Rat → Str} {e : Entry} (t : Tab)
    (h : e.1 < 2 ^ 31 ∧ e.2.1 < 2 ^ 31 ∧ Word (fmt e.2.2) ∧ atof (fmt e.2.2) = e.2.2) :
    Line (joinWords [showNat e.1, showNat e.2.1, fmt e.2.2]) ∧ Awk.getNF ' ' (joinWords [showNat e.1, showNat e.2.1, fmt e.2.2]) = 3 ∧
    loadEntry atof t (joinWords [showNat e.1, showNat e.2.1, fmt e.2.2]) =
      some (if e.1 ≤ 100 ∧ e.2.1 ≤ 100 then setEntry t e.1 e.2.1 e.2.2 else t) := by
  have hw : ∀ w ∈ [showNat e.1, showNat e.2.1, fmt e.2.2], Word w := by
    intro w hw
    simp only [List.mem_cons, List.not_mem_nil, or_false] at hw
    rcases hw with rfl | rfl | rfl
    · exact AligFile.word_showNat _
    · exact AligFile.word_showNat _
    · exact h.2.2.1
  have hf := SentHandler.fields_join hw
  have hd := (Awk.C41_dollar ' ' (joinWords [showNat e.1, showNat e.2.1, fmt e.2.2])).2
  have d1 : Awk.dollar ' ' (joinWords [showNat e.1, showNat e.2.1, fmt e.2.2]) 1 = showNat e.1 := by rw [hd 0, hf]; rfl
  have d2 : Awk.dollar ' ' (joinWords [showNat e.1, showNat e.2.1, fmt e.2.2]) 2 = showNat e.2.1 := by rw [hd 1, hf]; rfl
  have d3 : Awk.dollar ' ' (joinWords [showNat e.1, showNat e.2.1, fmt e.2.2]) 3 = fmt e.2.2 := by rw [hd 2, hf]; rfl
  refine ⟨SentHandler.line_join hw, by rw [Awk.C41_NF, hf]; rfl, ?_⟩
  unfold loadEntry
  rw [d1, d2, d3, Vocab.atoi_showNat _ h.1, Vocab.atoi_showNat _ h.2.1, h.2.2.2]
  show (if (e.1 : Int) < (101 : Int) ∧ (e.2.1 : Int) < (101 : Int) then if (e.1 : Int) < 0 ∨ (e.2.1 : Int) < 0 then none else
    some (setEntry t (e.1 : Int).toNat (e.2.1 : Int).toNat e.2.2) else some t) = _
  by_cases hc : e.1 ≤ 100 ∧ e.2.1 ≤ 100
  · rw [if_pos hc, if_pos (by omega), if_neg (by omega)]; simp
  · rw [if_neg hc, if_neg (by omega)]

theorem loadLines_spec {atof : Str → Rat} {fmt : Rat → Str} (es : List Entry) (h : Readable atof fmt es) (t : Tab) :
    ∃ t', loadLines atof t (es.map fun e => joinWords [showNat e.1, showNat e.2.1, fmt e.2.2]) = some t' ∧
      (∀ i j, i ≤ 100 → j ≤ 100 → t'.count i j = (lastVal es i j).getD (t.count i j)) ∧
      ∀ i, i ≤ 100 → t'.margin i = t.margin i + total es i := by
  induction es generalizing t with
  | nil => exact ⟨t, rfl, fun _ _ _ _ => rfl, fun _ _ => by simp only [total, sumBy_nil]; exact (Rat.add_zero _).symm⟩
  | cons e es ih =>
    obtain ⟨_, h2, h3⟩ := line_entry t (h e List.mem_cons_self)
    obtain ⟨t', e1, e2, e3⟩ := ih (fun x hx => h x (List.mem_cons_of_mem _ hx)) (if e.1 ≤ 100 ∧ e.2.1 ≤ 100 then setEntry t e.1 e.2.1 e.2.2 else t)
    refine ⟨t', ?_, fun i j hi hj => ?_, fun i hi => ?_⟩
    · rw [List.map_cons]
      show (match (if _ then _ else _) with | none => none | some t' => loadLines atof t' _) = _
      rw [if_pos h2, h3]; exact e1
    · rw [e2 i j hi hj, lastVal_cons]
      cases lastVal es i j with
      | some a => rfl
      | none =>
        rw [Option.none_or]
        by_cases hc : e.1 ≤ 100 ∧ e.2.1 ≤ 100
        · rw [if_pos hc]
          by_cases hij : e.1 = i ∧ e.2.1 = j
          · rw [if_pos hij, ← hij.1, ← hij.2]; simp [setEntry]
          · rw [if_neg hij]
            simp only [setEntry, Option.getD_none]
            rw [if_neg (by omega)]
        · rw [if_neg hc, if_neg (by omega)]
    · rw [e3 i hi]
      unfold total
      rw [sumBy_cons]
      by_cases hc : e.1 ≤ 100 ∧ e.2.1 ≤ 100
      · rw [if_pos hc]
        simp only [setEntry]
        by_cases hij : e.1 = i
        · rw [if_pos hij.symm, if_pos ⟨hij, hc.2⟩]; grind
        · rw [if_neg (fun hh => hij hh.symm), if_neg (by omega)]; grind
      · rw [if_neg hc, if_neg (by omega)]; grind

theorem load_file {atof : Str → Rat} {fmt : Rat → Str} (es : List Entry) (h : Readable atof fmt es) :
    ∃ t, load atof (some (fileOf fmt es)) = some t ∧ (∀ i j, i ≤ 100 → j ≤ 100 → t.count i j = (lastVal es i j).getD 0) ∧
      ∀ i, i ≤ 100 → t.margin i = total es i := by
  obtain ⟨t, h1, h2, h3⟩ := loadLines_spec es h clear
  refine ⟨t, ?_, h2, fun i hi => by rw [h3 i hi]; exact Rat.zero_add _⟩
  show loadLines atof clear (Awk.readAll _ (fileOf fmt es)) = _
  rw [← h1]
  congr 1
  unfold fileOf text
  apply Awk.C42_lines_partial
  · intro l hl
    obtain ⟨e, he, rfl⟩ := List.mem_map.1 hl
    exact (line_entry clear (h e he)).1
  · have : ∀ ls : List Str, ls.length ≤ (ls.flatMap fun l => l ++ ['\n']).length := by
      intro ls
      induction ls with
      | nil => simp
      | cons l ls ih => simp only [List.flatMap_cons, List.length_append, List.length_cons, List.length_nil]; omega
    exact Nat.lt_succ_of_le (this _)

theorem pk_in {t : Tab} {i j : Nat} (hi : i ≤ 100) (hj : j ≤ 100) :
    pk t i j = some (if t.margin i = 0 then 0 else t.count i j / t.margin i) := by
  unfold pk maxLen
  rw [if_neg (by omega), if_neg (by omega)]
  split
  · rfl
  · rw [if_neg (by omega)]

theorem lastVal_nodup {es : List Entry} (hn : (es.map fun e => (e.1, e.2.1)).Nodup) (i j : Nat) :
    (lastVal es i j).getD 0 = sumBy (fun e : Entry => if e.1 = i ∧ e.2.1 = j then e.2.2 else 0) es := by
  induction es with
  | nil => rfl
  | cons e es ih =>
    rw [List.map_cons, List.nodup_cons] at hn
    rw [lastVal_cons, sumBy_cons, ← ih hn.2]
    by_cases h : e.1 = i ∧ e.2.1 = j
    · have : lastVal es i j = none := by
        cases hl : lastVal es i j with
        | none => rfl
        | some x =>
          exfalso
          unfold lastVal at hl
          rw [Option.map_eq_some_iff] at hl
          obtain ⟨a, ha, _⟩ := hl
          have ha1 := List.mem_of_find?_eq_some ha
          have ha2 := List.find?_some ha
          simp at ha2
          exact hn.1 (List.mem_map.2 ⟨a, List.mem_reverse.1 ha1, by rw [ha2.1, ha2.2, h.1, h.2]⟩)
      rw [this, if_pos h, if_pos h, Option.none_or]
      simp [Rat.add_zero]
    · rw [if_neg h, if_neg h, Option.or_none]; grind

theorem sum_swap (es : List Entry) (i : Nat) (n : Nat) :
    sumBy (fun j => sumBy (fun e : Entry => if e.1 = i ∧ e.2.1 = j then e.2.2 else 0) es) (List.range n) =
      sumBy (fun e : Entry => if e.1 = i ∧ e.2.1 < n then e.2.2 else 0) es := by
  induction es with
  | nil => exact sumBy_zero fun _ _ => rfl
  | cons e es ih =>
    rw [sumBy_cons, ← ih, sumBy_congr (g := fun j => (if e.1 = i ∧ e.2.1 = j then e.2.2 else 0) +
      sumBy (fun e : Entry => if e.1 = i ∧ e.2.1 = j then e.2.2 else 0) es) (fun j _ => sumBy_cons _ _ _), sumBy_add]
    congr 1
    by_cases h : e.1 = i
    · rw [sumBy_congr (g := fun j => if j = e.2.1 then e.2.2 else 0) (fun j _ => by
        by_cases hj : e.2.1 = j
        · rw [if_pos ⟨h, hj⟩, if_pos hj.symm]
        · rw [if_neg (fun hh => hj hh.2), if_neg (fun hh => hj hh.symm)]), sumBy_single _ _ List.nodup_range]
      simp [h]
    · rw [if_neg (fun hh => h hh.1)]; exact sumBy_zero fun j _ => if_neg fun hh => h hh.1

theorem sum_total {es : List Entry} (hn : (es.map fun e => (e.1, e.2.1)).Nodup) (i : Nat) :
    sumBy (fun j => (lastVal es i j).getD 0) (List.range 101) = total es i := by
  rw [sumBy_congr fun j _ => lastVal_nodup hn i j, sum_swap]
  unfold total
  exact sumBy_congr fun e _ => by
    by_cases h : e.1 = i ∧ e.2.1 < 101
    · rw [if_pos h, if_pos (by omega)]
    · rw [if_neg h, if_neg (by omega)]

theorem sumBy_div {A : Type} (f : A → Rat) (d : Rat) (l : List A) : sumBy (fun a => f a / d) l = sumBy f l / d := by
  rw [sumBy_congr (g := fun a => d⁻¹ * f a) (fun a _ => by grind), sumBy_mul]; grind

/-- **C176 (partial).** For a file with entries `length segments count`: `pk_tlen(tlen,k)` with both up to 100 is the count of the last entry for
`(tlen,k)` divided by the sum of the counts of the entries for `tlen` (0 if that sum is 0). If no pair of lengths occurs twice and the counts are not negative,
the values are probabilities and, for every `tlen` with a positive count, they add up to 1 over `k` from 0 to 100. The phrase model returns the same
value with a floor of `1e-7`. Missing: lengths of 101 and repeated entries. -/
theorem C176_distribution_partial (atof : Str → Rat) (fmt : Rat → Str) (es : List Entry) (h : Readable atof fmt es) :
    ∃ t, load atof (some (fileOf fmt es)) = some t ∧
      (∀ tlen k, tlen ≤ 100 → k ≤ 100 → pk t tlen k = some (if total es tlen = 0 then 0 else (lastVal es tlen k).getD 0 / total es tlen)) ∧
      (∀ tlen k, 101 < tlen ∨ 101 < k → pk t tlen k = some 0) ∧
      ((es.map fun e => (e.1, e.2.1)).Nodup → (∀ e ∈ es, 0 ≤ e.2.2) →
        (∀ tlen k p, pk t tlen k = some p → 0 ≤ p ∧ p ≤ 1) ∧
        ∀ tlen, tlen ≤ 100 → total es tlen ≠ 0 → sumBy (fun k => (pk t tlen k).getD 0) (List.range 101) = 1) ∧
      ∀ tlen k, modelPk t tlen k = (pk t tlen k).map fun p => max p smooth := by
  obtain ⟨t, h1, h2, h3⟩ := load_file es h
  have hpk : ∀ tlen k, tlen ≤ 100 → k ≤ 100 → pk t tlen k = some (if total es tlen = 0 then 0 else (lastVal es tlen k).getD 0 / total es tlen) := by
    intro i j hi hj
    rw [pk_in hi hj, h2 i j hi hj, h3 i hi]
  refine ⟨t, h1, hpk, ?_, ?_, ?_⟩
  · intro i j hij
    unfold pk maxLen
    rw [if_pos hij]
  · intro hn h0
    have hl0 : ∀ i j, 0 ≤ (lastVal es i j).getD 0 := by
      intro i j
      rw [lastVal_nodup hn]
      exact sumBy_nonneg fun e he => by
        split
        · exact h0 e he
        · exact Rat.le_refl
    constructor
    · intro i j p hp
      by_cases hi : i ≤ 100
      · by_cases hj : j ≤ 100
        · rw [hpk i j hi hj, Option.some.injEq] at hp
          subst hp
          split
          · constructor <;> decide
          · rename_i ht
            have hle : (lastVal es i j).getD 0 ≤ total es i := by
              rw [← sum_total hn]
              exact le_sumBy (f := fun j => (lastVal es i j).getD 0) (fun j _ => hl0 i j) (List.mem_range.2 (by omega))
            have htp : 0 < total es i := by
              have := hl0 i j
              grind
            constructor
            · rw [Rat.div_def]
              exact Rat.mul_nonneg (hl0 i j) (Rat.le_of_lt (Rat.inv_pos.2 htp))
            · have h5 := Rat.mul_le_mul_of_nonneg_right hle (Rat.le_of_lt (Rat.inv_pos.2 htp))
              rw [Rat.div_def]
              exact Rat.le_trans h5 (by rw [Rat.mul_inv_cancel _ ht]; exact Rat.le_refl)
        · unfold pk maxLen at hp
          by_cases hj2 : j > 101
          · rw [if_pos (Or.inr hj2)] at hp; simp only [Option.some.injEq] at hp; subst hp; decide
          · rw [if_neg (by omega), if_neg (by omega)] at hp
            split at hp
            · simp only [Option.some.injEq] at hp; subst hp; decide
            · rw [if_pos (by omega)] at hp; simp at hp
      · unfold pk maxLen at hp
        split at hp
        · simp only [Option.some.injEq] at hp; subst hp; decide
        · rw [if_pos (by omega)] at hp; simp at hp
    · intro i hi ht
      rw [sumBy_congr (g := fun j => (lastVal es i j).getD 0 / total es i) (fun j hj => by
        rw [hpk i j hi (by have := List.mem_range.1 hj; omega), if_neg ht]; rfl), sumBy_div, sum_total hn]
      grind
  · intro i j
    unfold modelPk
    congr 1
    funext p
    split
    · rename_i hlt; grind
    · rename_i hlt; grind

/-- A concrete way of writing numbers, for the examples: whole numbers only. -/
def fmt0 (x : Rat) : Str := showNat x.num.toNat

/-- Its inverse. -/
def atof0 (s : Str) : Rat := ((atoi s).getD 0 : Int)

/-- Non-vacuity: a table with two sentence lengths. -/
example : ∃ t, load atof0 (some (fileOf fmt0 [(3, 1, 2), (3, 2, 6), (4, 4, 1)])) = some t ∧ pk t 3 2 = some (3 / 4) ∧ pk t 4 4 = some 1 ∧
    pk t 5 1 = some 0 := by
  have h : (load atof0 (some (fileOf fmt0 [(3, 1, 2), (3, 2, 6), (4, 4, 1)]))).map (fun t => [pk t 3 2, pk t 4 4, pk t 5 1]) =
      some [some (3 / 4), some 1, some 0] := by decide +kernel
  obtain ⟨t, h1, h2⟩ := Option.map_eq_some_iff.1 h
  simp only [List.cons.injEq] at h2
  exact ⟨t, h1, h2.1, h2.2.1, h2.2.2.1⟩

example : Readable atof0 fmt0 [(3, 1, 2), (3, 2, 6), (4, 4, 1)] := by
  intro e he
  simp only [List.mem_cons, List.not_mem_nil, or_false] at he
  rcases he with rfl | rfl | rfl <;> exact ⟨by decide, by decide, AligFile.word_showNat _, by decide +kernel⟩

/-- **C176, full statement:** the probability is defined for all lengths, and for every file with entries whose counts are not negative the probabilities
of a sentence length with a positive count add up to 1. -/
def C176_full : Prop := ∀ (atof : Str → Rat) (fmt : Rat → Str) (es : List Entry) (t : Tab), Readable atof fmt es → (∀ e ∈ es, 0 ≤ e.2.2) →
  load atof (some (fileOf fmt es)) = some t →
  (∀ tlen k, (pk t tlen k).isSome) ∧
  ∀ tlen, tlen ≤ 100 → total es tlen ≠ 0 → sumBy (fun k => (pk t tlen k).getD 0) (List.range 101) = 1

/-- A length of 101 is outside of the table. -/
theorem C176_counterexample : ¬ C176_full := by
  intro h
  obtain ⟨t, ht, _⟩ := load_file (atof := atof0) (fmt := fmt0) [] (fun e he => by cases he)
  have := (h atof0 fmt0 [] t (fun e he => by cases he) (fun e he => by cases he) ht).1 101 1
  simp [pk, maxLen] at this

/-- With a repeated entry the probabilities of a sentence length do not add up to 1. -/
theorem C176_repeated : ∃ (atof : Str → Rat) (fmt : Rat → Str) (es : List Entry) (t : Tab), Readable atof fmt es ∧ (∀ e ∈ es, 0 ≤ e.2.2) ∧
    load atof (some (fileOf fmt es)) = some t ∧ total es 1 ≠ 0 ∧ sumBy (fun k => (pk t 1 k).getD 0) (List.range 101) = 1 / 2 := by
  have hr : Readable atof0 fmt0 [(1, 1, 2), (1, 1, 2)] := by
    intro e he
    simp only [List.mem_cons, List.not_mem_nil, or_false] at he
    rcases he with rfl | rfl <;> exact ⟨by decide, by decide, AligFile.word_showNat _, by decide +kernel⟩
  obtain ⟨t, h1, h2, _⟩ := C176_distribution_partial atof0 fmt0 _ hr
  refine ⟨atof0, fmt0, _, t, hr, ?_, h1, by decide +kernel, ?_⟩
  · intro e he
    simp only [List.mem_cons, List.not_mem_nil, or_false] at he
    rcases he with rfl | rfl <;> decide
  · rw [sumBy_congr (g := fun k => if total [(1, 1, 2), (1, 1, 2)] 1 = 0 then 0 else
      (lastVal [(1, 1, 2), (1, 1, 2)] 1 k).getD 0 / total [(1, 1, 2), (1, 1, 2)] 1) (fun k hk => by
        rw [h2 1 k (by omega) (by have := List.mem_range.1 hk; omega)]; rfl)]
    decide +kernel

/-- The entry for two lengths, if its count is positive. -/
def ent (t : Tab) (i j : Nat) : Option Entry := if t.count i j > 0 then some (i, j, t.count i j) else none

/-- The entries with a positive count, in order. -/
def entries (t : Tab) : List Entry := (List.range 101).flatMap fun i => (List.range 101).filterMap fun j => ent t i j

theorem ent_pos {t : Tab} {i j : Nat} (h : t.count i j > 0) : ent t i j = some (i, j, t.count i j) := if_pos h

theorem ent_neg {t : Tab} {i j : Nat} (h : ¬ t.count i j > 0) : ent t i j = none := if_neg h

theorem print_eq (fmt : Rat → Str) (t : Tab) : print fmt t = fileOf fmt (entries t) := by
  unfold print fileOf entries text
  rw [List.flatMap_map, List.flatMap_assoc]
  refine congrArg (List.flatMap · (List.range 101)) (funext fun i => ?_)
  unfold printRow maxLen
  rw [List.flatMap_def, List.flatMap_def]
  induction List.range 101 with
  | nil => rfl
  | cons j js ih =>
    rw [List.map_cons, List.flatten_cons, ih]
    by_cases h : t.count i j > 0
    · rw [if_pos h, List.filterMap_cons_some (b := (i, j, t.count i j)) (ent_pos h), List.map_cons, List.flatten_cons]; rfl
    · rw [if_neg h, List.filterMap_cons_none (ent_neg h)]; rfl

theorem mem_entries {t : Tab} {e : Entry} : e ∈ entries t ↔ e.1 ≤ 100 ∧ e.2.1 ≤ 100 ∧ 0 < t.count e.1 e.2.1 ∧ e.2.2 = t.count e.1 e.2.1 := by
  unfold entries
  simp only [List.mem_flatMap, List.mem_filterMap, List.mem_range]
  constructor
  · rintro ⟨i, hi, j, hj, h⟩
    unfold ent at h
    split at h
    · rename_i hc
      simp only [Option.some.injEq] at h
      subst h
      exact ⟨by show i ≤ 100; omega, by show j ≤ 100; omega, hc, rfl⟩
    · cases h
  · rintro ⟨h1, h2, h3, h4⟩
    refine ⟨e.1, by omega, e.2.1, by omega, ?_⟩
    rw [ent_pos h3, ← h4]

theorem entries_nodup (t : Tab) : ((entries t).map fun e => (e.1, e.2.1)).Nodup := by
  have : (entries t).map (fun e => (e.1, e.2.1)) =
      (List.range 101).flatMap fun i => ((List.range 101).filter fun j => decide (t.count i j > 0)).map fun j => (i, j) := by
    unfold entries
    rw [List.map_flatMap]
    refine congrArg (List.flatMap · (List.range 101)) (funext fun i => ?_)
    induction List.range 101 with
    | nil => rfl
    | cons j js ih =>
      by_cases h : t.count i j > 0
      · rw [List.filterMap_cons_some (b := (i, j, t.count i j)) (ent_pos h), List.map_cons, ih, List.filter_cons_of_pos (by simpa using h)]; rfl
      · rw [List.filterMap_cons_none (ent_neg h), ih, List.filter_cons_of_neg (by simpa using h)]
  rw [this]
  unfold List.Nodup
  rw [List.pairwise_flatMap]
  constructor
  · intro i _
    rw [List.pairwise_map]
    refine List.Pairwise.imp ?_ (List.Pairwise.filter _ List.nodup_range)
    intro a b hab he
    exact hab (by simpa using he)
  · refine List.Pairwise.imp ?_ (List.nodup_range (n := 101))
    intro a b hab x hx y hy hxy
    obtain ⟨_, _, rfl⟩ := List.mem_map.1 hx
    obtain ⟨_, _, rfl⟩ := List.mem_map.1 hy
    exact hab (by simpa using congrArg Prod.fst hxy)

theorem lastVal_entries {t : Tab} (h0 : ∀ i j, i ≤ 100 → j ≤ 100 → 0 ≤ t.count i j) {i j : Nat} (hi : i ≤ 100) (hj : j ≤ 100) :
    (lastVal (entries t) i j).getD 0 = t.count i j := by
  unfold lastVal
  cases hf : (entries t).reverse.find? fun e => e.1 == i && e.2.1 == j with
  | some e =>
    have h1 := mem_entries.1 (List.mem_reverse.1 (List.mem_of_find?_eq_some hf))
    have h2 := List.find?_some hf
    simp at h2
    rw [← h2.1, ← h2.2]; exact h1.2.2.2
  | none =>
    rw [List.find?_eq_none] at hf
    have hz : ¬ 0 < t.count i j := by
      intro hp
      exact hf (i, j, t.count i j) (List.mem_reverse.2 (mem_entries.2 ⟨hi, hj, hp, rfl⟩)) (by simp)
    have := h0 i j hi hj
    show (0 : Rat) = _
    grind

/-- **C177 (partial).** A table read from a file without repeated entries or negative counts, printed and read again, gives the same probabilities for
all lengths. Missing: the table used when there is no file, and repeated entries. -/
theorem C177_round_trip_partial (atof : Str → Rat) (fmt : Rat → Str) (es : List Entry) (h : Readable atof fmt es) (hn : (es.map fun e => (e.1, e.2.1)).Nodup) (h0 : ∀ e ∈ es, 0 ≤ e.2.2) :
    ∃ t t', load atof (some (fileOf fmt es)) = some t ∧ load atof (some (print fmt t)) = some t' ∧ ∀ tlen k, pk t' tlen k = pk t tlen k := by
  obtain ⟨t, h1, h2, h3⟩ := load_file es h
  have hr : Readable atof fmt (entries t) := by
    intro e he
    have hm := mem_entries.1 he
    refine ⟨by omega, by omega, ?_⟩
    have hv := h2 e.1 e.2.1 hm.1 hm.2.1
    unfold lastVal at hv
    cases hf : es.reverse.find? fun e' => e'.1 == e.1 && e'.2.1 == e.2.1 with
    | none => rw [hf] at hv; have h7 := hm.2.2.1; rw [hv] at h7; exact absurd h7 (by decide)
    | some e' =>
      rw [hf] at hv
      have hx : e.2.2 = e'.2.2 := hm.2.2.2.trans hv
      rw [hx]
      exact (h e' (List.mem_reverse.1 (List.mem_of_find?_eq_some hf))).2.2
  obtain ⟨t', h4, h5, h6⟩ := load_file (entries t) hr
  have hc0 : ∀ i j, i ≤ 100 → j ≤ 100 → 0 ≤ t.count i j := by
    intro i j hi hj
    rw [h2 i j hi hj, lastVal_nodup hn]
    exact sumBy_nonneg fun e he => by
      split
      · exact h0 e he
      · exact Rat.le_refl
  have hm : ∀ i, i ≤ 100 → t'.margin i = t.margin i := by
    intro i hi
    rw [h6 i hi, h3 i hi, ← sum_total (entries_nodup t), ← sum_total hn]
    refine sumBy_congr fun j hj => ?_
    have hj := List.mem_range.1 hj
    rw [lastVal_entries hc0 hi (by omega), h2 i j hi (by omega)]
  refine ⟨t, t', h1, by rw [print_eq]; exact h4, fun i j => ?_⟩
  unfold pk maxLen
  by_cases hc : i > 101 ∨ j > 101
  · rw [if_pos hc, if_pos hc]
  · rw [if_neg hc, if_neg hc]
    by_cases hi : i ≥ 101
    · rw [if_pos hi, if_pos hi]
    · rw [if_neg hi, if_neg hi, hm i (by omega)]
      split
      · rfl
      · split
        · rfl
        · rw [h5 i j (by omega) (by omega), lastVal_entries hc0 (by omega) (by omega)]

/-- Without a file every number of segments up to 100 has probability 1. -/
theorem C177_no_file (atof : Str → Rat) : ∃ t, load atof none = some t ∧ ∀ tlen k, tlen ≤ 100 → k ≤ 100 → pk t tlen k = some 1 := by
  refine ⟨constant, rfl, fun i j hi hj => ?_⟩
  rw [pk_in hi hj]
  show some (if (0 + 1 : Rat) = 0 then 0 else 1 / (0 + 1)) = _
  decide +kernel

/-- **C177, full statement:** also for the table used without a file. -/
def C177_full : Prop := ∀ (atof : Str → Rat) (fmt : Rat → Str) (t t' : Tab), load atof none = some t → Readable atof fmt (entries t) →
  load atof (some (print fmt t)) = some t' → ∀ tlen k, pk t' tlen k = pk t tlen k

theorem C177_counterexample : ¬ C177_full := by
  intro h
  have hr : Readable atof0 fmt0 (entries constant) := by
    intro e he
    have hm := mem_entries.1 he
    refine ⟨by omega, by omega, AligFile.word_showNat _, ?_⟩
    rw [hm.2.2.2]
    show atof0 (fmt0 1) = 1
    decide +kernel
  obtain ⟨t', h1, h2, h3⟩ := load_file _ hr
  have h4 := h atof0 fmt0 constant t' rfl hr (by rw [print_eq]; exact h1) 1 1
  have hc0 : ∀ i j, i ≤ 100 → j ≤ 100 → 0 ≤ constant.count i j := fun _ _ _ _ => by show (0 : Rat) ≤ 1; decide
  have hm : t'.margin 1 = 101 := by
    rw [h3 1 (by omega), ← sum_total (entries_nodup constant), sumBy_congr (g := fun _ => 1) (fun j hj => by
      rw [lastVal_entries hc0 (by omega) (by have := List.mem_range.1 hj; omega)]; rfl), sumBy_const]
    decide +kernel
  rw [pk_in (by omega) (by omega), pk_in (by omega) (by omega), hm, h2 1 1 (by omega) (by omega), lastVal_entries hc0 (by omega) (by omega)] at h4
  revert h4
  show ¬ (some (if (101 : Rat) = 0 then 0 else 1 / 101) = some (if (0 + 1 : Rat) = 0 then 0 else 1 / (0 + 1)))
  decide +kernel

end Thot.SegmLen
