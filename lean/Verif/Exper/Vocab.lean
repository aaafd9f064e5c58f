import Verif.Exper.Counts
/-!
# C288–C290: vocabularies, segment lengths and sentence lengths
-/
namespace Thot.Exper

open Thot
open Thot.Awk (fields)
open Thot.Sum (sumBy sumBy_nil sumBy_cons)

/-! ### C288: vocabularies of the alignment models -/

/-- The word `w` with index `i` and its number of occurrences. -/
def vocEntry (ls : List W) (e : W × Nat) : Nat × W × Nat := (e.2, e.1, (ls.flatMap (fields ' ')).count e.1)

/-- Full statement of C288: the special symbols come first, in the given order, and then the words of the corpus in the order of their first
occurrences; the indices are consecutive and the frequencies are the numbers of occurrences. -/
def C288_full : Prop := ∀ (sps : W) (ls : List W),
  (swmVocab sps ls).Perm ((((fields ' ' sps ++ ls.flatMap (fields ' ')).eraseDups).zipIdx).map (vocEntry ls))

theorem zipIdx_snoc {A : Type} (l : List A) (a : A) : (l ++ [a]).zipIdx = l.zipIdx ++ [(a, l.length)] := by
  rw [List.zipIdx_append]; simp

theorem eraseDups_snoc (l : List W) (w : W) : (l ++ [w]).eraseDups = if w ∈ l then l.eraseDups else l.eraseDups ++ [w] := by
  rw [List.eraseDups_append]
  by_cases h : w ∈ l
  · rw [if_pos h, show [w].removeAll l = [] from by simp [List.removeAll, h]]; simp
  · rw [if_neg h, show [w].removeAll l = [w] from by simp [List.removeAll, h]]
    rw [List.eraseDups_cons]; simp

theorem mem_eraseDups' {l : List W} {w : W} : w ∈ l.eraseDups ↔ w ∈ l := List.mem_eraseDups

theorem map_fst_zipIdx (l : List W) : (l.zipIdx).map Prod.fst = l := by simp

theorem addSp_fold : ∀ (ws : List W) (done : List W), (done ++ ws).Nodup →
    ws.foldl addSp ⟨done.zipIdx, [], done.length⟩ = ⟨(done ++ ws).zipIdx, [], (done ++ ws).length⟩ := by
  intro ws
  induction ws with
  | nil => intro done _; simp
  | cons w ws ih =>
    intro done h
    have hw : w ∉ done := fun hm => (List.nodup_append.1 h).2.2 w hm w List.mem_cons_self rfl
    rw [List.foldl_cons]
    have hp : AMap.put done.zipIdx w done.length = (done ++ [w]).zipIdx := by
      rw [AMap.put_of_none, zipIdx_snoc]
      rw [AMap.lk_none_iff, map_fst_zipIdx]; exact hw
    have := ih (done ++ [w]) (by simpa using h)
    rw [List.append_assoc, List.singleton_append] at this
    rw [← this]
    unfold addSp
    dsimp only
    rw [hp, List.length_append]
    rfl

theorem addTok_fold (sps : List W) : ∀ (ws done : List W) (st : VocSt),
    st.vocab = (sps ++ done).eraseDups.zipIdx → st.id = (sps ++ done).eraseDups.length → (∀ w, (AMap.lk st.freq w).getD 0 = done.count w) →
    (ws.foldl addTok st).vocab = (sps ++ (done ++ ws)).eraseDups.zipIdx ∧
      ∀ w, (AMap.lk (ws.foldl addTok st).freq w).getD 0 = (done ++ ws).count w := by
  intro ws
  induction ws with
  | nil => intro done st h1 h2 h3; rw [List.append_nil]; exact ⟨h1, h3⟩
  | cons w ws ih =>
    intro done st h1 h2 h3
    rw [List.foldl_cons, show done ++ w :: ws = (done ++ [w]) ++ ws from by simp]
    have hmem : AMap.lk st.vocab w = none ↔ w ∉ sps ++ done := by
      rw [AMap.lk_none_iff, h1, map_fst_zipIdx, mem_eraseDups']
    have hcount : ∀ v, (done ++ [w]).count v = done.count v + if v = w then 1 else 0 := by
      intro v
      rw [List.count_append, List.count_singleton]
      by_cases hv : v = w
      · subst hv; simp
      · have : ¬ w = v := fun e => hv e.symm
        simp [hv, this]
    apply ih
    · unfold addTok
      split
      · rename_i h
        dsimp only
        rw [AMap.put_of_none _ h, ← List.append_assoc, eraseDups_snoc, if_neg (hmem.1 h), zipIdx_snoc, h1, h2]
      · rename_i h
        have hw : w ∈ sps ++ done := Classical.not_not.1 fun hn => h (hmem.2 hn)
        dsimp only
        rw [← List.append_assoc, eraseDups_snoc, if_pos hw, h1]
    · unfold addTok
      split
      · rename_i h
        dsimp only
        rw [← List.append_assoc, eraseDups_snoc, if_neg (hmem.1 h), List.length_append, h2]
        rfl
      · rename_i h
        have hw : w ∈ sps ++ done := Classical.not_not.1 fun hn => h (hmem.2 hn)
        dsimp only
        rw [← List.append_assoc, eraseDups_snoc, if_pos hw, h2]
    · intro v
      rw [hcount]
      unfold addTok
      split
      · rename_i h
        dsimp only
        rw [AMap.lk_put]
        by_cases hv : v = w
        · subst hv
          rw [if_pos rfl, if_pos rfl]
          have : v ∉ done := fun hm => hmem.1 h (List.mem_append_right _ hm)
          rw [List.count_eq_zero_of_not_mem this]; rfl
        · rw [if_neg hv, if_neg hv, h3]; rfl
      · dsimp only
        rw [AMap.lk_put]
        by_cases hv : v = w
        · subst hv
          rw [if_pos rfl, if_pos rfl, ← h3]; rfl
        · rw [if_neg hv, if_neg hv, h3]; rfl

/-- C288 with different special symbols. Missing: a repeated special symbol gets its last index and the first one is not used. -/
theorem C288_vocab_partial (sps : W) (ls : List W) (hs : (fields ' ' sps).Nodup) :
    (swmVocab sps ls).Perm ((((fields ' ' sps ++ ls.flatMap (fields ' ')).eraseDups).zipIdx).map (vocEntry ls)) := by
  have h0 := addSp_fold (fields ' ' sps) [] (by simpa using hs)
  have hd : (fields ' ' sps).eraseDups = fields ' ' sps := by
    generalize fields ' ' sps = l at hs
    clear h0
    rw [← List.reverse_reverse l] at hs ⊢
    generalize l.reverse = m at hs
    induction m with
    | nil => rfl
    | cons a m ih =>
      rw [List.reverse_cons] at hs ⊢
      have h1 := List.nodup_append.1 hs
      rw [eraseDups_snoc, if_neg (fun hm => h1.2.2 a hm a List.mem_cons_self rfl), ih h1.1]
  obtain ⟨h1, h2⟩ := addTok_fold (fields ' ' sps) (ls.flatMap (fields ' ')) [] ⟨(fields ' ' sps).zipIdx, [], (fields ' ' sps).length⟩
    (by rw [List.append_nil, hd]) (by rw [List.append_nil, hd]) (by intro w; rfl)
  unfold swmVocab
  dsimp only
  rw [show (fields ' ' sps).foldl addSp ⟨[], [], 0⟩ = ⟨(fields ' ' sps).zipIdx, [], (fields ' ' sps).length⟩ from h0, h1]
  rw [List.nil_append]
  refine List.Perm.of_eq ?_
  apply List.map_congr_left
  intro e _
  unfold vocEntry
  rw [h2, List.nil_append]

/-- A repeated special symbol. -/
theorem C288_counterexample : ¬ C288_full := by
  intro h
  have := h "a a".toList []
  have e1 : swmVocab "a a".toList [] = [(1, ['a'], 0)] := by decide +kernel
  have e2 : ((((fields ' ' "a a".toList ++ ([] : List W).flatMap (fields ' ')).eraseDups).zipIdx).map (vocEntry [])) = [(0, ['a'], 0)] := by decide +kernel
  rw [e1, e2] at this
  have := List.singleton_perm_singleton.1 this
  revert this; decide

example : swmVocab "NULL UNK".toList ["a b a".toList, "c UNK".toList] =
    [(0, "NULL".toList, 0), (1, "UNK".toList, 1), (2, "a".toList, 2), (3, "b".toList, 1), (4, "c".toList, 1)] := by decide +kernel

/-! ### C289: segment lengths -/

theorem addSeg_fold : ∀ (es : List ((Nat × Nat) × Nat)) (m : List ((Nat × Nat) × Nat)), AMap.Distinct m →
    AMap.Distinct (es.foldl addSeg m) ∧ ∀ p, AMap.lk (es.foldl addSeg m) p =
      if AMap.lk m p = none ∧ (∀ e ∈ es, e.1 ≠ p) then none
      else some ((AMap.lk m p).getD 0 + ((es.filter fun e => decide (e.1 = p)).map Prod.snd).sum) := by
  intro es
  induction es with
  | nil =>
    intro m hm
    refine ⟨hm, ?_⟩
    intro p
    cases h : AMap.lk m p with
    | none => simp [h]
    | some c => simp [h]
  | cons e es ih =>
    intro m hm
    rw [List.foldl_cons]
    have hd : AMap.Distinct (addSeg m e) := by
      unfold addSeg
      split
      · exact AMap.distinct_put hm _ _
      · exact AMap.distinct_put hm _ _
    have hl : ∀ p, AMap.lk (addSeg m e) p = if p = e.1 then some ((AMap.lk m p).getD 0 + e.2) else AMap.lk m p := by
      intro p
      unfold addSeg
      split
      · rename_i h
        rw [AMap.lk_put]
        by_cases hp : p = e.1
        · rw [if_pos hp, if_pos hp, hp, h]; simp
        · rw [if_neg hp, if_neg hp]
      · rename_i c h
        rw [AMap.lk_put]
        by_cases hp : p = e.1
        · rw [if_pos hp, if_pos hp, hp, h]; rfl
        · rw [if_neg hp, if_neg hp]
    obtain ⟨i1, i2⟩ := ih _ hd
    refine ⟨i1, ?_⟩
    intro p
    rw [i2 p, hl p]
    by_cases hp : p = e.1
    · rw [if_pos hp, if_neg (by simp), if_neg (by intro h; exact h.2 e List.mem_cons_self hp.symm),
        List.filter_cons_of_pos (by simpa using hp.symm)]
      simp only [List.map_cons, List.sum_cons, Option.getD_some]
      congr 1; omega
    · rw [if_neg hp, List.filter_cons_of_neg (by simpa using fun h => hp h.symm)]
      have hcond : (AMap.lk m p = none ∧ ∀ x ∈ e :: es, x.1 ≠ p) ↔ (AMap.lk m p = none ∧ ∀ x ∈ es, x.1 ≠ p) := by
        constructor
        · intro h; exact ⟨h.1, fun x hx => h.2 x (List.mem_cons_of_mem _ hx)⟩
        · intro h
          refine ⟨h.1, ?_⟩
          intro x hx
          rcases List.mem_cons.1 hx with rfl | hx
          · exact fun h => hp h.symm
          · exact h.2 x hx
      by_cases hc : AMap.lk m p = none ∧ ∀ x ∈ es, x.1 ≠ p
      · rw [if_pos hc, if_pos (hcond.2 hc)]
      · rw [if_neg hc, if_neg (fun h => hc (hcond.1 h))]

/-- C289: the output has a single line for each pair of lengths of the input, with the sum of its counts. -/
theorem C289_merge (es : List ((Nat × Nat) × Nat)) : ((mergeSeglen es).map Prod.fst).Nodup ∧
    ∀ p c, (p, c) ∈ mergeSeglen es ↔ (∃ e ∈ es, e.1 = p) ∧ c = ((es.filter fun e => decide (e.1 = p)).map Prod.snd).sum := by
  obtain ⟨h1, h2⟩ := addSeg_fold es [] AMap.distinct_nil
  refine ⟨h1, ?_⟩
  intro p c
  show (p, c) ∈ es.foldl addSeg [] ↔ _
  rw [← AMap.lk_some_iff h1, h2 p]
  by_cases hc : ∃ e ∈ es, e.1 = p
  · rw [if_neg (by rintro ⟨_, h⟩; obtain ⟨e, he, hp⟩ := hc; exact h e he hp)]
    simp only [AMap.lk, Option.getD_none, Nat.zero_add, Option.some.injEq, hc, true_and]
    exact ⟨fun h => h.symm, fun h => h.symm⟩
  · rw [if_pos ⟨rfl, fun e he hp => hc ⟨e, he, hp⟩⟩]
    simp only [hc, false_and]
    exact ⟨fun h => absurd h (by simp), fun h => h.elim⟩

/-- C289: the order of the lines does not matter, so the counts of several parts of a corpus can be put together in any order. -/
theorem C289_order (es es' : List ((Nat × Nat) × Nat)) (h : es.Perm es') : (mergeSeglen es).Perm (mergeSeglen es') := by
  refine AMap.perm_of_lk (C289_merge es).1 (C289_merge es').1 ?_
  intro p
  have key : ∀ c, AMap.lk (mergeSeglen es) p = some c ↔ AMap.lk (mergeSeglen es') p = some c := by
    intro c
    rw [AMap.lk_some_iff (C289_merge es).1, AMap.lk_some_iff (C289_merge es').1, (C289_merge es).2, (C289_merge es').2]
    have e2 : ((es.filter fun e => decide (e.1 = p)).map Prod.snd).sum = ((es'.filter fun e => decide (e.1 = p)).map Prod.snd).sum :=
      ((h.filter _).map _).sum_nat
    rw [e2]
    constructor
    · rintro ⟨⟨e, he, hp⟩, hc⟩; exact ⟨⟨e, h.mem_iff.1 he, hp⟩, hc⟩
    · rintro ⟨⟨e, he, hp⟩, hc⟩; exact ⟨⟨e, h.mem_iff.2 he, hp⟩, hc⟩
  cases h1 : AMap.lk (mergeSeglen es) p with
  | some c => exact ((key c).1 h1).symm
  | none =>
    cases h2 : AMap.lk (mergeSeglen es') p with
    | none => rfl
    | some c => have := (key c).2 h2; rw [h1] at this; cases this

example : mergeSeglen [((1, 2), 3), ((1, 1), 5), ((1, 2), 4)] = [((1, 2), 7), ((1, 1), 5)] := by decide +kernel

/-! ### C290: sentence length model -/

/-- Lengths of the sentence pairs: source, target. -/
def lens (src trg : List W) : List (Nat × Nat) := (src.zip trg).map fun p => ((fields ' ' p.1).length, (fields ' ' p.2).length)

/-- The target lengths of the pairs with source length `i`. -/
def targets (ps : List (Nat × Nat)) (i : Nat) : List Nat := (ps.filter fun p => decide (p.1 = i)).map Prod.snd

/-- The entry has the number, the mean and the sum of the squared deviations of the lengths. -/
def EntOk (e : SlenEnt) (ts : List Nat) : Prop :=
  e.k = ts.length ∧ e.sw = ts.length ∧ e.m * ts.length = sumBy (fun (t : Nat) => (t : Rat)) ts ∧
    e.s = sumBy (fun (t : Nat) => ((t : Rat) - e.m) * ((t : Rat) - e.m)) ts

/-- The model of a corpus. -/
def SlenOk (src trg : List W) (out : Nat × Nat × Nat × List (Nat × SlenEnt)) : Prop :=
  out.1 = (lens src trg).length ∧ out.2.1 = ((lens src trg).map Prod.fst).sum ∧ out.2.2.1 = ((lens src trg).map Prod.snd).sum ∧
  (out.2.2.2.map Prod.fst).Nodup ∧
  (∀ i, i ∈ out.2.2.2.map Prod.fst ↔ targets (lens src trg) i ≠ []) ∧ ∀ i e, (i, e) ∈ out.2.2.2 → EntOk e (targets (lens src trg) i)

/-- Full statement of C290: for each source length the model has the number of sentence pairs, the mean of their target lengths and the sum of the
squared deviations. -/
def C290_full : Prop := ∀ src trg : List W, SlenOk src trg (slenModel trg src)

theorem slenPairs_eq : ∀ (trg src : List W), trg.length ≤ src.length → slenPairs trg src = lens src trg := by
  intro trg
  induction trg with
  | nil => intro src _; cases src <;> rfl
  | cons t ts ih =>
    intro src h
    cases src with
    | nil => simp at h
    | cons s ss =>
      rw [slenPairs, ih ss (by simpa using h)]
      rfl

/-- Sum of squared deviations from any center. -/
theorem dev_shift (ts : List Nat) (m c : Rat) (hm : m * ts.length = sumBy (fun (t : Nat) => (t : Rat)) ts) :
    sumBy (fun (t : Nat) => ((t : Rat) - c) * ((t : Rat) - c)) ts =
      sumBy (fun (t : Nat) => ((t : Rat) - m) * ((t : Rat) - m)) ts + (m - c) * (m - c) * ts.length := by
  have e : ∀ t : Nat, ((t : Rat) - c) * ((t : Rat) - c) = (((t : Rat) - m) * ((t : Rat) - m) + 2 * (m - c) * (t : Rat)) + ((m - c) * (m - c) - 2 * (m - c) * m) := by
    intro t; grind
  rw [Sum.sumBy_congr (fun t _ => e t), Sum.sumBy_add, Sum.sumBy_add, Sum.sumBy_mul, Sum.sumBy_const, ← hm]
  grind

theorem sumBy_snoc (f : Nat → Rat) (ts : List Nat) (t : Nat) : sumBy f (ts ++ [t]) = sumBy f ts + f t := by
  induction ts with
  | nil => rw [List.nil_append, sumBy_cons, sumBy_nil]; grind
  | cons a ts ih => rw [List.cons_append, sumBy_cons, sumBy_cons, ih]; grind

/-- The update of an entry. -/
theorem slenUpd_ok (e : SlenEnt) (ts : List Nat) (hts : ts ≠ []) (h : EntOk e ts) (t : Nat) : EntOk (slenUpd (some e) t) (ts ++ [t]) := by
  obtain ⟨h1, h2, h3, h4⟩ := h
  have hn : (0 : Rat) < (ts.length : Rat) := by
    have : 0 < ts.length := by cases ts with | nil => exact absurd rfl hts | cons => simp
    exact_mod_cast this
  have hl : ((ts ++ [t]).length : Rat) = (ts.length : Rat) + 1 := by rw [List.length_append]; push_cast; rfl
  have hz : (1 + e.sw) ≠ 0 := by rw [h2]; grind
  generalize hN : (ts.length : Rat) = n at *
  have hm : (slenUpd (some e) t).m * ((ts ++ [t]).length : Rat) = sumBy (fun (t : Nat) => (t : Rat)) (ts ++ [t]) := by
    rw [sumBy_snoc, ← h3, hl]
    show (e.m + (((t : Rat) - e.m) * 1) / (1 + e.sw)) * (n + 1) = _
    have := Rat.div_mul_cancel (a := ((t : Rat) - e.m) * 1) hz
    rw [h2] at this ⊢
    grind
  refine ⟨?_, ?_, hm, ?_⟩
  · show e.k + 1 = _
    rw [h1, List.length_append]; rfl
  · show 1 + e.sw = _
    rw [h2, hl]; grind
  · show e.s + (e.sw * 1 * (((t : Rat) - e.m) * ((t : Rat) - e.m))) / (1 + e.sw) = _
    have hshift := dev_shift ts e.m (slenUpd (some e) t).m (by rw [hN]; exact h3)
    rw [sumBy_snoc, hshift, ← h4, hN]
    have hd : (slenUpd (some e) t).m - e.m = ((t : Rat) - e.m) / (1 + e.sw) := by
      show e.m + (((t : Rat) - e.m) * 1) / (1 + e.sw) - e.m = _
      rw [Rat.mul_one]; grind
    have hm2 : (slenUpd (some e) t).m = e.m + ((t : Rat) - e.m) / (1 + e.sw) := by rw [← hd]; grind
    rw [h2] at hz hm2 ⊢
    rw [hm2]
    have hq := Rat.div_mul_cancel (a := (t : Rat) - e.m) hz
    generalize ((t : Rat) - e.m) / (1 + n) = q at hq ⊢
    have hx : (t : Rat) - e.m = q * (1 + n) := hq.symm
    have ht : (t : Rat) = e.m + q * (1 + n) := by rw [← hx]; grind
    rw [ht]
    have hdiv : n * 1 * ((e.m + q * (1 + n) - e.m) * (e.m + q * (1 + n) - e.m)) / (1 + n) = n * q * q * (1 + n) := by
      have : n * 1 * ((e.m + q * (1 + n) - e.m) * (e.m + q * (1 + n) - e.m)) = (n * q * q * (1 + n)) * (1 + n) := by grind
      rw [this, Rat.mul_div_cancel hz]
    rw [hdiv]
    grind

theorem slenUpd_first (t : Nat) : EntOk (slenUpd none t) [t] := by
  refine ⟨rfl, by simp [slenUpd], ?_, ?_⟩
  · rw [sumBy_cons, sumBy_nil]; simp [slenUpd]; try exact (Rat.add_zero _).symm
  · rw [sumBy_cons, sumBy_nil]; simp only [slenUpd]; grind

theorem slen_fold (ps : List (Nat × Nat)) : ∀ (done : List (Nat × Nat)) (a : Nat × Nat × Nat × List (Nat × SlenEnt)),
    a.1 = done.length → a.2.1 = (done.map Prod.fst).sum → a.2.2.1 = (done.map Prod.snd).sum → AMap.Distinct a.2.2.2 →
    (∀ i, (AMap.lk a.2.2.2 i = none ↔ targets done i = []) ∧ ∀ e, AMap.lk a.2.2.2 i = some e → EntOk e (targets done i)) →
    let b := ps.foldl (fun (a : Nat × Nat × Nat × List (Nat × SlenEnt)) p =>
      (a.1 + 1, a.2.1 + p.1, a.2.2.1 + p.2, AMap.put a.2.2.2 p.1 (slenUpd (AMap.lk a.2.2.2 p.1) p.2))) a
    b.1 = (done ++ ps).length ∧ b.2.1 = ((done ++ ps).map Prod.fst).sum ∧ b.2.2.1 = ((done ++ ps).map Prod.snd).sum ∧ AMap.Distinct b.2.2.2 ∧
    ∀ i, (AMap.lk b.2.2.2 i = none ↔ targets (done ++ ps) i = []) ∧ ∀ e, AMap.lk b.2.2.2 i = some e → EntOk e (targets (done ++ ps) i) := by
  induction ps with
  | nil => intro done a h1 h2 h3 h4 h5; rw [List.append_nil]; exact ⟨h1, h2, h3, h4, h5⟩
  | cons p ps ih =>
    intro done a h1 h2 h3 h4 h5
    rw [List.foldl_cons, show done ++ p :: ps = (done ++ [p]) ++ ps from by simp]
    apply ih
    · dsimp only; rw [h1, List.length_append]; rfl
    · dsimp only; rw [h2, List.map_append, List.sum_append]; simp
    · dsimp only; rw [h3, List.map_append, List.sum_append]; simp
    · exact AMap.distinct_put h4 _ _
    · intro i
      dsimp only
      rw [AMap.lk_put]
      by_cases hi : i = p.1
      · rw [if_pos hi]
        have ht : targets (done ++ [p]) i = targets done i ++ [p.2] := by
          unfold targets
          rw [List.filter_append, List.map_append, List.filter_cons_of_pos (by simpa using hi.symm)]
          rfl
        rw [ht]
        refine ⟨by simp, ?_⟩
        intro e he
        injection he with he
        subst he
        rw [← hi]
        cases hlk : AMap.lk a.2.2.2 i with
        | none =>
          rw [((h5 i).1).1 hlk]
          exact slenUpd_first p.2
        | some e =>
          refine slenUpd_ok e _ ?_ ((h5 i).2 e hlk) p.2
          intro hnil
          rw [((h5 i).1).2 hnil] at hlk
          cases hlk
      · rw [if_neg hi]
        have ht : targets (done ++ [p]) i = targets done i := by
          unfold targets
          rw [List.filter_append, List.map_append, List.filter_cons_of_neg (by simpa using fun h => hi h.symm)]
          simp
        rw [ht]
        exact h5 i

/-- C290 for a source file with at least as many lines as the target file. Missing: if it has less lines, the target length is used as the source
length. -/
theorem C290_slen_partial (src trg : List W) (h : trg.length ≤ src.length) : SlenOk src trg (slenModel trg src) := by
  unfold slenModel
  rw [slenPairs_eq trg src h]
  obtain ⟨h1, h2, h3, h4, h5⟩ := slen_fold (lens src trg) [] (0, 0, 0, []) rfl rfl rfl AMap.distinct_nil
    (fun i => ⟨by simp [AMap.lk, targets], fun e he => by simp [AMap.lk] at he⟩)
  rw [List.nil_append] at h1 h2 h3 h5
  refine ⟨h1, h2, h3, h4, ?_, ?_⟩
  · intro i
    have h6 := (h5 i).1
    rw [AMap.lk_none_iff] at h6
    constructor
    · intro hm hn; exact h6.2 hn hm
    · intro hn
      exact Classical.not_not.1 fun hm => hn (h6.1 hm)
  · intro i e he
    exact (h5 i).2 e ((AMap.lk_some_iff h4).2 he)

/-- A target line without a source line is counted. -/
theorem C290_counterexample : ¬ C290_full := by
  intro h
  have := (h [] ["a".toList]).1
  revert this
  decide +kernel

example : slenModel ["a b".toList, "c".toList, "d".toList] ["x".toList, "y".toList, "z w".toList] =
    (3, 4, 4, [(1, ⟨2, 2, 3/2, 1/2⟩), (2, ⟨1, 1, 1, 0⟩)]) := by
  have e : slenPairs ["a b".toList, "c".toList, "d".toList] ["x".toList, "y".toList, "z w".toList] = [(1, 2), (1, 1), (2, 1)] := by decide +kernel
  unfold slenModel
  rw [e]
  simp [AMap.put, AMap.lk, slenUpd]
  grind

end Thot.Exper
