import Verif.Exper.Model
/-!
# C283, C284: shuffling files and splitting a corpus
-/
namespace Thot.Exper

open Thot
open Thot.SentHandler (joinWords Word fields_join)
open Thot.Awk (fields)
open Thot.Vocab (showNat)

/-! ### Specification -/

/-- The words of the line separated by one blank. -/
def norm (l : W) : W := joinWords (fields ' ' l)

/-- The line has a word. -/
def HasWord (l : W) : Prop := fields ' ' l ≠ []

/-! ### Lines -/

theorem allButLast_join : ∀ (ws : List W), ws ≠ [] → allButLast ws ++ ws.getLast?.getD [] = joinWords ws := by
  intro ws
  induction ws with
  | nil => intro h; exact absurd rfl h
  | cons w ws ih =>
    intro _
    cases ws with
    | nil => rfl
    | cons v ws =>
      have := ih (by simp)
      rw [show allButLast (w :: v :: ws) = w ++ ' ' :: allButLast (v :: ws) from rfl, List.append_assoc, List.cons_append]
      rw [show (w :: v :: ws).getLast? = (v :: ws).getLast? from by simp [List.getLast?_cons_cons], this]
      rfl

theorem fields_showNat (n : Nat) (r : W) : fields ' ' (showNat n ++ ' ' :: r) = showNat n :: fields ' ' r := by
  have hw : Word (showNat n) := NbTools.word_showNat n
  have := PhrTools.fields_prefix [showNat n] (by simpa using hw) (by simp) r
  simpa [joinWords] using this

theorem fields_text (d : Deco) : fields ' ' d.text = showNat d.r :: showNat d.nr :: fields ' ' d.txt := by
  unfold Deco.text
  rw [fields_showNat, fields_showNat]

/-- A line with a word is printed with its words separated by one blank. -/
theorem undeco_text (d : Deco) (h : HasWord d.txt) : undeco (fields ' ' d.text) = norm d.txt := by
  rw [fields_text]
  unfold undeco norm
  rw [← allButLast_join _ h]
  simp only [List.drop_succ_cons, List.drop_zero]
  cases hf : fields ' ' d.txt with
  | nil => exact absurd hf h
  | cons w ws => simp [List.getLast?_cons_cons]

/-- A line with no word is printed as its number. -/
theorem undeco_blank (d : Deco) (h : ¬ HasWord d.txt) : undeco (fields ' ' d.text) = showNat d.nr := by
  rw [fields_text, Classical.not_not.1 h]
  rfl

/-! ### The order -/

theorem deco_eq (r : Nat → Nat) : ∀ (ls : List W) (i : Nat),
    deco r i ls = (List.range ls.length).map fun k => ⟨r (i + k), i + k + 1, ls.getD k []⟩ := by
  intro ls
  induction ls with
  | nil => intro i; rfl
  | cons l ls ih =>
    intro i
    rw [deco, ih, List.length_cons, List.range_succ_eq_map, List.map_cons, List.map_map]
    congr 1
    apply List.map_congr_left
    intro k _
    simp only [Function.comp, List.getD_cons_succ]
    rw [show i + 1 + k = i + (k + 1) from by omega]

/-- The order of the lines: by random number and then by position. -/
def order (r : Nat → Nat) (n : Nat) : List Nat :=
  (List.range n).mergeSort fun i j => decide (r i < r j) || (decide (r i = r j) && decide (i ≤ j))

theorem order_perm (r : Nat → Nat) (n : Nat) : (order r n).Perm (List.range n) := List.mergeSort_perm _ _

theorem shuffle_eq (r : Nat → Nat) (ls : List W) :
    shuffle r ls = (order r ls.length).map fun k => undeco (fields ' ' (Deco.mk (r k) (k + 1) (ls.getD k [])).text) := by
  unfold shuffle order
  rw [deco_eq, ← List.map_mergeSort (r := fun i j => decide (r i < r j) || (decide (r i = r j) && decide (i ≤ j)))]
  · rw [List.map_map]
    apply List.map_congr_left
    intro k _
    simp only [Function.comp, Nat.zero_add]
  · intro a _ b _
    simp only [Deco.le, Nat.zero_add]
    congr 1
    congr 1
    simp

/-- With words in all the lines. -/
theorem shuffle_words (r : Nat → Nat) (ls : List W) (h : ∀ l ∈ ls, HasWord l) :
    shuffle r ls = (order r ls.length).map fun k => norm (ls.getD k []) := by
  rw [shuffle_eq]
  apply List.map_congr_left
  intro k hk
  have hk' : k < ls.length := List.mem_range.1 ((order_perm r ls.length).mem_iff.1 hk)
  apply undeco_text
  apply h
  show ls.getD k [] ∈ ls
  rw [List.getD_eq_getElem?_getD, List.getElem?_eq_getElem hk']
  exact List.getElem_mem _

theorem map_getD_range (ls : List W) (f : W → W) : (List.range ls.length).map (fun k => f (ls.getD k [])) = ls.map f := by
  apply List.ext_getElem
  · simp
  · intro i h1 h2
    simp at h1
    simp [h1]

/-! ### C283 -/

/-- Full statement of C283: for all the random numbers, `thot_shuffle` prints the lines in another order (with single blanks), and the order depends
only on the random numbers and on the number of lines. -/
def C283_full : Prop := ∀ (r : Nat → Nat) (n : Nat), ∃ σ : List Nat, σ.Perm (List.range n) ∧ ∀ ls : List W, ls.length = n →
  shuffle r ls = σ.map (fun k => norm (ls.getD k [])) ∧ (shuffle r ls).Perm (ls.map norm)

/-- C283 with a word in each line. Missing: a line with no word is printed as its number. -/
theorem C283_shuffle_partial (r : Nat → Nat) (n : Nat) : ∃ σ : List Nat, σ.Perm (List.range n) ∧ σ.Pairwise (fun i j => r i ≤ r j) ∧
    ∀ ls : List W, ls.length = n → (∀ l ∈ ls, HasWord l) →
      shuffle r ls = σ.map (fun k => norm (ls.getD k [])) ∧ (shuffle r ls).Perm (ls.map norm) := by
  refine ⟨order r n, order_perm r n, ?_, ?_⟩
  · have := List.pairwise_mergeSort (le := fun i j => decide (r i < r j) || (decide (r i = r j) && decide (i ≤ j))) (l := List.range n)
      (by intro a b c; simp only [Bool.or_eq_true, decide_eq_true_eq, Bool.and_eq_true]; omega)
      (by intro a b; simp only [Bool.or_eq_true, decide_eq_true_eq, Bool.and_eq_true]; omega)
    refine List.Pairwise.imp ?_ this
    intro a b; simp only [Bool.or_eq_true, decide_eq_true_eq, Bool.and_eq_true]; omega
  · intro ls hn h
    have e := shuffle_words r ls h
    rw [hn] at e
    refine ⟨e, ?_⟩
    rw [e]
    have := (order_perm r n).map fun k => norm (ls.getD k [])
    refine this.trans ?_
    rw [← hn, map_getD_range]

/-- A line with no word is printed as its number. -/
theorem C283_counterexample : ¬ C283_full := by
  intro h
  obtain ⟨σ, hs, h⟩ := h (fun _ => 0) 1
  obtain ⟨_, h⟩ := h [[]] rfl
  rw [shuffle_eq] at h
  have ho : order (fun _ => 0) ([[]] : List W).length = [0] := by simp [order]
  rw [ho] at h
  simp only [List.map_cons, List.map_nil] at h
  rw [undeco_blank _ (by show ¬ HasWord []; intro h; exact h rfl)] at h
  have := List.singleton_perm_singleton.1 h
  rw [show norm [] = [] from rfl] at this
  exact Vocab.showNat_ne_nil _ this

/-- C283: lines without repeated blanks are not changed. -/
theorem C283_normal (ws : List W) (h : ∀ w ∈ ws, Word w) : norm (joinWords ws) = joinWords ws := by
  unfold norm; rw [fields_join h]

/-! ### The alternative implementation -/

theorem altLoop_spec (u : Nat → Nat → Nat) (hu : ∀ i b, 0 < b → u i b < b) (line : Nat → W) : ∀ (j i : Nat) (v : Nat → Nat),
    (altLoop u line j i v).Perm ((List.range j).map fun k => line (v k)) := by
  intro j
  induction j with
  | zero => intro i v; exact List.Perm.refl _
  | succ j ih =>
    intro i v
    rw [altLoop]
    have hlt := hu i (j + 1) (by omega)
    generalize u i (j + 1) = n at hlt
    refine (List.Perm.cons _ (ih (i + 1) _)).trans ?_
    rw [List.range_succ, List.map_append]
    by_cases hn : n = j
    · subst hn
      have : (List.range n).map (fun k => line (if k = n then v n else v k)) = (List.range n).map fun k => line (v k) := by
        apply List.map_congr_left
        intro k hk
        rw [if_neg (show ¬ k = n from by have := List.mem_range.1 hk; omega)]
      rw [this]
      exact (List.perm_append_comm (l₁ := [_])).trans (List.Perm.refl _)
    · have hlt' : n < j := by omega
      obtain ⟨a, b, hab⟩ := List.append_of_mem (List.mem_range.2 hlt')
      have hnd : (a ++ n :: b).Nodup := hab ▸ List.nodup_range
      rw [hab]
      have ha : n ∉ a := fun hm => (List.nodup_append.1 hnd).2.2 n hm n List.mem_cons_self rfl
      have hb : n ∉ b := (List.nodup_cons.1 (List.nodup_append.1 hnd).2.1).1
      have e1 : ∀ l : List Nat, n ∉ l → l.map (fun k => line (if k = n then v j else v k)) = l.map fun k => line (v k) := by
        intro l hl
        apply List.map_congr_left
        intro k hk
        rw [if_neg (show ¬ k = n from fun h => hl (h ▸ hk))]
      simp only [List.map_append, List.map_cons, e1 a ha, e1 b hb, if_true, List.map_nil]
      rw [List.append_assoc, List.cons_append]
      refine (List.perm_middle (a := line (v n)) (l₁ := List.map (fun k => line (v k)) a)).symm.trans ?_
      refine List.Perm.append_left _ (List.Perm.cons _ ?_)
      exact (List.perm_append_comm (l₁ := [line (v j)]))

/-- C283: the alternative implementation prints a permutation of the lines, whatever the random numbers are. -/
theorem C283_alt (u : Nat → Nat → Nat) (hu : ∀ i b, 0 < b → u i b < b) (ls : List W) : (shuffleAlt u ls).Perm ls := by
  have := altLoop_spec u hu (fun k => ls.getD k []) ls.length 0 id
  refine this.trans ?_
  have e := map_getD_range ls id
  rw [List.map_id] at e
  simp only [id] at e ⊢
  rw [e]

example : shuffle (fun i => [5, 2, 9].getD i 0) ["a  b".toList, "c".toList, "d".toList] = ["c".toList, "a b".toList, "d".toList] := by
  rw [shuffle_words _ _ (by
    intro l hl
    have hall : ∀ l ∈ ["a  b".toList, "c".toList, "d".toList], HasWord l := by unfold HasWord; decide
    exact hall l hl)]
  rw [show order (fun i => [5, 2, 9].getD i 0) (["a  b".toList, "c".toList, "d".toList] : List W).length = [1, 0, 2] from by
    simp [order, List.range_succ, List.mergeSort, List.MergeSort.Internal.splitInTwo, List.splitAt, List.splitAt.go, List.merge]]
  decide +kernel

/-! ### C284 -/

theorem head_map (n : Nat) (σ : List Nat) (f : Nat → W) : head n (σ.map f) = (σ.take n).map f := by unfold head; rw [List.map_take]
theorem tail_map (n : Nat) (σ : List Nat) (f : Nat → W) : tail n (σ.map f) = (σ.drop (σ.length - n)).map f := by
  unfold tail; rw [List.length_map, List.map_drop]

/-- The files of one language: training, development and test lines given by their positions in the corpus. -/
def Splits (f : List W) (p : Part) (tr dv ts : List Nat) : Prop :=
  p.train = tr.map (fun k => norm (f.getD k [])) ∧ p.dev = dv.map (fun k => norm (f.getD k [])) ∧ p.test = ts.map (fun k => norm (f.getD k []))

/-- Full statement of C284: if the script gives no error, the training, development and test sets are disjoint parts of the corpus of the requested
sizes, aligned in both languages. -/
def C284_full : Prop := ∀ (r : Nat → Nat) (src trg : List W) (e dt : Nat) (p : Part × Part),
  (∀ l ∈ src, HasWord l) → (∀ l ∈ trg, HasWord l) → genPartition r src trg e dt = some p →
  ∃ tr dv ts rest : List Nat, (tr ++ dv ++ ts ++ rest).Perm (List.range src.length) ∧ tr.length = src.length - e ∧ dv.length = dt ∧
    ts.length = dt ∧ Splits src p.1 tr dv ts ∧ Splits trg p.2 tr dv ts

theorem part_splits (r : Nat → Nat) (f : List W) (e dt : Nat) (hf : ∀ l ∈ f, HasWord l) (he : e ≤ f.length) (hdt : 2 * dt ≤ e) :
    Splits f (partOf r f.length e dt f) ((order r f.length).take (f.length - e)) (((order r f.length).drop (f.length - e)).take dt)
      (((order r f.length).drop (f.length - e + dt)).take dt) := by
  have hl : (order r f.length).length = f.length := by rw [(order_perm r f.length).length_eq]; simp
  unfold partOf
  dsimp only
  rw [shuffle_words r f hf]
  refine ⟨?_, ?_, ?_⟩
  · dsimp only; rw [head_map]
  · dsimp only; rw [tail_map, head_map, hl]
  · dsimp only
    rw [tail_map, head_map, tail_map, hl]
    congr 1
    rw [List.length_take, List.length_drop, hl, show min (2 * dt) (f.length - (f.length - e)) - dt = dt from by omega]
    rw [List.drop_take, List.drop_drop, show 2 * dt - dt = dt from by omega]

/-- C284 with `2·dt ≤ e`. Missing: the script accepts larger values, and then the sets overlap (it checks another variable). -/
theorem C284_partition_partial (r : Nat → Nat) (e dt n : Nat) (he : 2 * dt ≤ e) : ∃ tr dv ts rest : List Nat,
    (e ≤ n → (tr ++ dv ++ ts ++ rest).Perm (List.range n) ∧ tr.length = n - e ∧ dv.length = dt ∧ ts.length = dt) ∧
    ∀ (src trg : List W) (p : Part × Part), src.length = n → (∀ l ∈ src, HasWord l) → (∀ l ∈ trg, HasWord l) →
      genPartition r src trg e dt = some p → e ≤ n ∧ trg.length = n ∧ Splits src p.1 tr dv ts ∧ Splits trg p.2 tr dv ts := by
  have hl : (order r n).length = n := by rw [(order_perm r n).length_eq]; simp
  refine ⟨(order r n).take (n - e), ((order r n).drop (n - e)).take dt, ((order r n).drop (n - e + dt)).take dt,
    (order r n).drop (n - e + dt + dt), ?_, ?_⟩
  · intro hen
    refine ⟨?_, ?_, ?_, ?_⟩
    · rw [List.append_assoc, List.append_assoc]
      rw [show (order r n).drop (n - e + dt + dt) = ((order r n).drop (n - e + dt)).drop dt from by rw [List.drop_drop],
        List.take_append_drop, show (order r n).drop (n - e + dt) = ((order r n).drop (n - e)).drop dt from by rw [List.drop_drop],
        List.take_append_drop, List.take_append_drop]
      exact order_perm r n
    · rw [List.length_take, hl]; omega
    · rw [List.length_take, List.length_drop, hl]; omega
    · rw [List.length_take, List.length_drop, hl]; omega
  · intro src trg p hn hs ht h
    unfold genPartition at h
    split at h
    · cases h
    split at h
    · cases h
    rename_i hlen
    split at h
    · cases h
    rename_i hne
    injection h with h
    subst h
    have hlen : src.length = trg.length := Classical.not_not.1 hlen
    have h1 := part_splits r src e dt hs (by omega) he
    have h2 := part_splits r trg e dt ht (by omega) he
    rw [hn] at h1
    rw [← hlen, hn] at h2
    refine ⟨by omega, by omega, ?_, ?_⟩
    · rw [hn]; exact h1
    · rw [hn]; exact h2

/-- When the script gives an error. -/
theorem C284_error (r : Nat → Nat) (src trg : List W) (e dt : Nat) :
    genPartition r src trg e dt = none ↔ dt = 0 ∨ src.length ≠ trg.length ∨ src.length < e := by
  unfold genPartition
  split
  · rename_i h; simp only [true_iff]; omega
  split
  · rename_i h; simp [h]
  split
  · rename_i h; simp [h]
  · rename_i h1 h2 h3
    constructor
    · intro h; cases h
    · intro h
      rcases h with h | h | h
      · omega
      · exact absurd h h2
      · exact absurd h h3

/-- Excluding one sentence of two, with one sentence for each set, the development and test sets are equal. -/
theorem C284_counterexample : ¬ C284_full := by
  intro h
  have hw : ∀ l ∈ [['a'], ['b']], HasWord l := by unfold HasWord; decide
  have hsh : shuffle id [['a'], ['b']] = [['a'], ['b']] := by
    rw [shuffle_words id _ hw, show order id ([['a'], ['b']] : List W).length = [0, 1] from by
      simp [order, List.range_succ, List.mergeSort, List.MergeSort.Internal.splitInTwo, List.splitAt, List.splitAt.go, List.merge]]
    decide +kernel
  have hp : partOf id 2 1 1 [['a'], ['b']] = ⟨[['a']], [['b']], [['b']], [['b']]⟩ := by unfold partOf; rw [hsh]; rfl
  obtain ⟨tr, dv, ts, rest, h1, h2, h3, h4, _⟩ := h id [['a'], ['b']] [['a'], ['b']] 1 1 (partOf id 2 1 1 [['a'], ['b']], partOf id 2 1 1 [['a'], ['b']])
    hw hw rfl
  have := h1.length_eq
  simp only [List.length_append, h2, h3, h4, List.length_range, List.length_cons, List.length_nil] at this
  omega

example : (genPartition id [['a'], ['b'], ['c'], ['d']] [['x'], ['y'], ['z'], ['w']] 2 1).isSome = true := rfl

end Thot.Exper
