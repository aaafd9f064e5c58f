import Verif.Srf.Sets

/-! What `fillSrfNodeInfoMapRec` computes: at each node the number of ways of covering the remaining positions, and how many of
them use each pair. -/

namespace Thot.Srf

open Thot.WordAlig (Mat)
open Thot.PhrExtract
open AMap

/-- The pairs tried at the node whose first source position is `a`. -/
def stepsAt (bp : BpSet) (I a : Nat) : List Span :=
  (List.range' a (I + 1 - a)).flatMap fun x => (retrieve bp a x).map Prod.fst

/-- The ways of covering, in the order of the recursion. -/
def segsF (bp : BpSet) (I : Nat) : Nat → Nat → Cov → List (List Span)
  | 0, _, _ => []
  | f + 1, a, TP =>
    if I < a then (if TP = 0 then [[]] else [])
    else (stepsAt bp I a).flatMap fun s =>
      match markTrg TP s.y1 (s.y2 + 1 - s.y1) with
      | none => []
      | some TP' => (segsF bp I f (s.x2 + 1) TP').map (s :: ·)

def segs (bp : BpSet) (I a : Nat) (TP : Cov) : List (List Span) := segsF bp I (I + 2 - a) a TP

theorem mem_stepsAt {bp : BpSet} {I a : Nat} {s : Span} :
    s ∈ stepsAt bp I a ↔ s ∈ bp.map Prod.fst ∧ s.x1 = a ∧ a ≤ s.x2 ∧ s.x2 ≤ I := by
  simp only [stepsAt, List.mem_flatMap, List.mem_range'_1, List.mem_map, mem_retrieve]
  constructor
  · rintro ⟨x, hx, e, ⟨he, h1, h2⟩, rfl⟩
    exact ⟨⟨e, he, rfl⟩, h1, by omega, by omega⟩
  · rintro ⟨⟨e, he, rfl⟩, h1, h2, h3⟩
    exact ⟨e.1.x2, by omega, e, ⟨he, h1, rfl⟩, rfl⟩

theorem nodup_stepsAt {bp : BpSet} (hd : Distinct bp) (I a : Nat) : (stepsAt bp I a).Nodup := by
  apply nodup_flatMap'
  · exact List.nodup_range'
  · intro x _
    exact List.Nodup.sublist (List.Sublist.map _ List.filter_sublist) hd
  · intro x x' s h1 h2
    obtain ⟨e, g1, q⟩ := List.mem_map.1 h1
    obtain ⟨e', g2, q'⟩ := List.mem_map.1 h2
    obtain ⟨_, _, g1⟩ := mem_retrieve.1 g1
    obtain ⟨_, _, g2⟩ := mem_retrieve.1 g2
    rw [q] at g1
    rw [q'] at g2
    omega

theorem segsF_fuel (bp : BpSet) (I : Nat) (f : Nat) : ∀ (f' a : Nat) (TP : Cov), a ≤ I + 1 → I + 2 - a ≤ f → I + 2 - a ≤ f' →
    segsF bp I f a TP = segsF bp I f' a TP := by
  induction f with
  | zero => intro f' a TP ha h; omega
  | succ f ih =>
    intro f' a TP ha h h'
    obtain ⟨f', rfl⟩ : ∃ g, f' = g + 1 := ⟨f' - 1, by omega⟩
    rw [segsF, segsF]
    split
    · rfl
    · rw [List.flatMap_def, List.flatMap_def]
      congr 1
      apply List.map_congr_left
      intro s hs
      obtain ⟨_, h1, h2, h3⟩ := mem_stepsAt.1 hs
      cases markTrg TP s.y1 (s.y2 + 1 - s.y1) with
      | none => rfl
      | some TP' =>
        simp only
        rw [ih f' (s.x2 + 1) TP' (by omega) (by omega) (by omega)]

/-- What one pair contributes. -/
def contrib (bp : BpSet) (I : Nat) (TP : Cov) (s : Span) : List (List Span) :=
  match markTrg TP s.y1 (s.y2 + 1 - s.y1) with
  | none => []
  | some TP' => (segs bp I (s.x2 + 1) TP').map (s :: ·)

theorem segs_eq (bp : BpSet) (I a : Nat) (ha : a ≤ I + 1) (TP : Cov) :
    segs bp I a TP = if I < a then (if TP = 0 then [[]] else []) else (stepsAt bp I a).flatMap (contrib bp I TP) := by
  unfold segs
  obtain ⟨f, hf⟩ : ∃ f, I + 2 - a = f + 1 := ⟨I + 1 - a, by omega⟩
  rw [hf, segsF]
  split
  · rfl
  · rw [List.flatMap_def, List.flatMap_def]
    congr 1
    apply List.map_congr_left
    intro s hs
    obtain ⟨_, h1, h2, h3⟩ := mem_stepsAt.1 hs
    unfold contrib
    cases markTrg TP s.y1 (s.y2 + 1 - s.y1) with
    | none => rfl
    | some TP' =>
      simp only [segs]
      rw [segsF_fuel bp I f (I + 2 - (s.x2 + 1)) (s.x2 + 1) TP' (by omega) (by omega) (by omega)]

/-- How often a pair occurs in a list of segmentations. -/
def occ (L : List (List Span)) (u : Span) : Nat := (L.map (List.count u)).sum

theorem occ_append (L M : List (List Span)) (u : Span) : occ (L ++ M) u = occ L u + occ M u := by
  simp [occ]

theorem occ_cons (L : List (List Span)) (s u : Span) : occ (L.map (s :: ·)) u = (if u = s then L.length else 0) + occ L u := by
  induction L with
  | nil => simp [occ]
  | cons σ L ih =>
    simp only [occ, List.map_cons, List.sum_cons, List.map_map, List.length_cons] at ih ⊢
    rw [List.count_cons, ih]
    by_cases h : u = s
    · subst h; simp; omega
    · have h' : ¬ s = u := fun q => h q.symm
      simp [h, h']

/-- The information of a node is that of the list of segmentations. -/
structure Right (i : Info) (L : List (List Span)) : Prop where
  num : i.n = L.length
  dist : Distinct i.c
  cnt : ∀ u, val i.c u = occ L u
  pos : Pos i.c

theorem right_nil : Right ⟨0, []⟩ [] := ⟨rfl, distinct_nil, fun _ => rfl, fun _ h => by cases h⟩

theorem right_step {i j : Info} {P Q : List (List Span)} (hi : Right i P) (hj : Right j Q) (hn : j.n ≥ 1) (s : Span) :
    Right ⟨i.n + j.n, obtainUnion (incrPair i.c s j.n) j.c⟩ (P ++ Q.map (s :: ·)) := by
  refine ⟨?_, ?_, ?_, ?_⟩
  · simp [hi.num, hj.num]
  · exact distinct_union (distinct_incr hi.dist _ _) _
  · intro u
    simp only
    rw [val_union _ hj.dist, val_incr, hi.cnt, hj.cnt, occ_append, occ_cons, hj.num]
    omega
  · exact pos_union (distinct_incr hi.dist _ _) (pos_incr hi.dist hi.pos hn) hj.pos

/-- The table is right for the nodes from position `a` on. -/
def Good (bp : BpSet) (I a : Nat) (m : NMap) : Prop :=
  ∀ b TP i, a ≤ b → b ≤ I + 1 → lk m (suf I b, TP) = some i → Right i (segs bp I b TP)

/-- The nodes before position `a` are as they were. -/
def Same (I a : Nat) (m m' : NMap) : Prop := ∀ b TP, b < a → lk m' (suf I b, TP) = lk m (suf I b, TP)

theorem same_refl (I a : Nat) (m : NMap) : Same I a m m := fun _ _ _ => rfl

theorem same_trans {I a : Nat} {m m' m'' : NMap} (h : Same I a m m') (h' : Same I a m' m'') : Same I a m m'' :=
  fun b TP hb => (h' b TP hb).trans (h b TP hb)

theorem same_mono {I a b : Nat} (hab : a ≤ b) {m m' : NMap} (h : Same I b m m') : Same I a m m' :=
  fun c TP hc => h c TP (by omega)

theorem lk_put_suf {I : Nat} (hI : I < 128) (m : NMap) {a b : Nat} (ha : a ≤ I + 1) (hb : b ≤ I + 1) (TP TP' : Cov) (i : Info) :
    lk (put m (suf I a, TP) i) (suf I b, TP') = if b = a ∧ TP' = TP then some i else lk m (suf I b, TP') := by
  rw [lk_put]
  by_cases h : b = a ∧ TP' = TP
  · rw [if_pos h, if_pos (by rw [h.1, h.2])]
  · rw [if_neg h, if_neg]
    intro q
    simp only [Prod.mk.injEq] at q
    exact h ⟨suf_inj hI hb ha q.1, q.2⟩

theorem same_put {I : Nat} (hI : I < 128) (m : NMap) {a : Nat} (ha : a ≤ I + 1) (TP : Cov) (i : Info) :
    Same I a m (put m (suf I a, TP) i) := by
  intro b TP' hb
  rw [lk_put_suf hI m ha (by omega), if_neg (by omega)]

/-- The state while the pairs of the node `(a, TP)` are tried; `P` are the segmentations found. -/
structure During (bp : BpSet) (I a : Nat) (TP : Cov) (m0 m : NMap) (P : List (List Span)) : Prop where
  good : ∀ b TP' i, a ≤ b → b ≤ I + 1 → ¬ (b = a ∧ TP' = TP) → lk m (suf I b, TP') = some i → Right i (segs bp I b TP')
  here : ∃ i, lk m (suf I a, TP) = some i ∧ Right i P
  same : Same I a m0 m

/-- The body of the loop. -/
def body (bp : BpSet) (I f : Nat) (SP TP : Cov) (m : NMap) (s : Span) : NMap :=
  match markTrg TP s.y1 (s.y2 + 1 - s.y1) with
  | none => m
  | some TP' =>
    addStep
      (if (lk m (markSrc SP s.x1 s.x2, TP')).isSome then m else fillRec bp I f (markSrc SP s.x1 s.x2) TP' m)
      (SP, TP) (markSrc SP s.x1 s.x2, TP') s

theorem fillRec_succ (bp : BpSet) (I f : Nat) (SP TP : Cov) (m : NMap) :
    fillRec bp I (f + 1) SP TP m = if SP = 0 then put m (SP, TP) ⟨if TP = 0 then 1 else 0, []⟩
      else (steps bp I SP).foldl (body bp I f SP TP) (put m (SP, TP) ⟨0, []⟩) := rfl

theorem steps_suf (bp : BpSet) {I : Nat} (hI : I ≤ 100) {a : Nat} (ha : 1 ≤ a) (ha' : a ≤ I) : steps bp I (suf I a) = stepsAt bp I a := by
  have h := minMax_intv (suf_intv (I := I) (by omega) a) ha ha' (by simp only [maxSentLen]; omega) (Nat.le_refl I)
  unfold steps stepsAt
  rw [h]

/-- What a call does. -/
def Spec (bp : BpSet) (I f : Nat) : Prop :=
  ∀ a TP m, 1 ≤ a → a ≤ I + 1 → I + 2 - a ≤ f → Good bp I a m →
    Good bp I a (fillRec bp I f (suf I a) TP m) ∧ (lk (fillRec bp I f (suf I a) TP m) (suf I a, TP)).isSome ∧
    Same I a m (fillRec bp I f (suf I a) TP m)

theorem body_during {bp : BpSet} {I f : Nat} (hI : I ≤ 100) (hrec : Spec bp I f) {a : Nat} (ha : 1 ≤ a) (ha' : a ≤ I)
    (hf : I + 1 - a ≤ f) {TP : Cov} {m0 m : NMap} {P : List (List Span)} (hm : During bp I a TP m0 m P) {s : Span} (hs : s ∈ stepsAt bp I a) :
    During bp I a TP m0 (body bp I f (suf I a) TP m s) (P ++ contrib bp I TP s) := by
  obtain ⟨_, h1, h2, h3⟩ := mem_stepsAt.1 hs
  have hI' : I < 128 := by omega
  unfold body contrib
  cases hmk : markTrg TP s.y1 (s.y2 + 1 - s.y1) with
  | none => simpa using hm
  | some TP' =>
    simp only
    rw [h1, markSrc_suf hI' h2 h3]
    -- the node reached is in the table afterwards
    obtain ⟨m', hm', hd, j, hj⟩ : ∃ m', m' = (if (lk m (suf I (s.x2 + 1), TP')).isSome then m else fillRec bp I f (suf I (s.x2 + 1)) TP' m) ∧
        During bp I a TP m0 m' P ∧ ∃ j, lk m' (suf I (s.x2 + 1), TP') = some j := by
      by_cases hk : (lk m (suf I (s.x2 + 1), TP')).isSome
      · exact ⟨m, by rw [if_pos hk], hm, Option.isSome_iff_exists.1 hk⟩
      · obtain ⟨g1, g2, g3⟩ := hrec (s.x2 + 1) TP' m (by omega) (by omega) (by omega)
          (fun b T i hb hb' hl => hm.good b T i (by omega) hb' (by omega) hl)
        refine ⟨_, by rw [if_neg hk], ⟨?_, ?_, ?_⟩, Option.isSome_iff_exists.1 g2⟩
        · intro b T i hb hb' hne hl
          rcases Nat.lt_or_ge b (s.x2 + 1) with hlt | hge
          · rw [g3 b T hlt] at hl
            exact hm.good b T i hb hb' hne hl
          · exact g1 b T i hge hb' hl
        · rw [g3 a TP (by omega)]
          exact hm.here
        · exact same_trans hm.same (same_mono (by omega) g3)
    rw [← hm']
    obtain ⟨i, hi, hri⟩ := hd.here
    have hrj : Right j (segs bp I (s.x2 + 1) TP') := hd.good _ _ _ (by omega) (by omega) (by omega) hj
    have e1 : infoOf m' (suf I (s.x2 + 1), TP') = j := by unfold infoOf; rw [hj]; rfl
    have e2 : infoOf m' (suf I a, TP) = i := by unfold infoOf; rw [hi]; rfl
    unfold addStep
    rw [e1, e2]
    by_cases hn : j.n ≥ 1
    · rw [if_pos hn]
      refine ⟨?_, ⟨_, by rw [lk_put_self], right_step hri hrj hn s⟩, same_trans hd.same (same_put hI' _ (by omega) _ _)⟩
      intro b T i' hb hb' hne hl
      rw [lk_put_suf hI' _ (by omega) hb', if_neg hne] at hl
      exact hd.good b T i' hb hb' hne hl
    · rw [if_neg hn]
      have : segs bp I (s.x2 + 1) TP' = [] := by
        apply List.eq_nil_of_length_eq_zero
        rw [← hrj.num]; omega
      rw [this, List.map_nil, List.append_nil]
      exact hd

theorem loop_during {bp : BpSet} {I f : Nat} (hI : I ≤ 100) (hrec : Spec bp I f) {a : Nat} (ha : 1 ≤ a) (ha' : a ≤ I)
    (hf : I + 1 - a ≤ f) {TP : Cov} {m0 : NMap} (l : List Span) : ∀ {m : NMap} {P : List (List Span)}, During bp I a TP m0 m P →
    (∀ s ∈ l, s ∈ stepsAt bp I a) → During bp I a TP m0 (l.foldl (body bp I f (suf I a) TP) m) (P ++ l.flatMap (contrib bp I TP)) := by
  induction l with
  | nil => intro m P hm _; simpa using hm
  | cons s l ih =>
    intro m P hm hl
    rw [List.foldl_cons, List.flatMap_cons, ← List.append_assoc]
    exact ih (body_during hI hrec ha ha' hf hm (hl s (.head _))) fun s hs => hl s (.tail _ hs)

theorem fillRec_spec (bp : BpSet) {I : Nat} (hI : I ≤ 100) (f : Nat) : Spec bp I f := by
  have hI' : I < 128 := by omega
  induction f with
  | zero => intro a TP m h1 h2 h3; omega
  | succ f ih =>
    intro a TP m h1 h2 h3 hg
    rw [fillRec_succ]
    by_cases h : I < a
    · rw [if_pos ((suf_eq_zero hI' a).2 h)]
      refine ⟨?_, by rw [lk_put_self]; rfl, same_put hI' m h2 _ _⟩
      intro b T i hb hb' hl
      rw [lk_put_suf hI' m h2 hb'] at hl
      split at hl
      · rename_i q
        obtain ⟨rfl, rfl⟩ := q
        cases hl
        rw [segs_eq bp I b hb', if_pos h]
        by_cases ht : T = 0
        · rw [if_pos ht, if_pos ht]
          exact ⟨rfl, distinct_nil, fun _ => rfl, fun _ h => by cases h⟩
        · rw [if_neg ht, if_neg ht]
          exact right_nil
      · exact hg b T i hb hb' hl
    · rw [if_neg (fun q => h ((suf_eq_zero hI' a).1 q)), steps_suf bp hI h1 (by omega)]
      have h0 : During bp I a TP m (put m (suf I a, TP) ⟨0, []⟩) [] := by
        refine ⟨?_, ⟨_, by rw [lk_put_self], right_nil⟩, same_put hI' m h2 _ _⟩
        intro b T i hb hb' hne hl
        rw [lk_put_suf hI' m h2 hb', if_neg hne] at hl
        exact hg b T i hb hb' hl
      have hd := loop_during hI ih h1 (by omega) (by omega) (stepsAt bp I a) h0 (fun s hs => hs)
      rw [List.nil_append] at hd
      have hseg := segs_eq bp I a h2 TP
      rw [if_neg h] at hseg
      rw [← hseg] at hd
      obtain ⟨i, hi, hri⟩ := hd.here
      refine ⟨?_, by rw [hi]; rfl, hd.same⟩
      intro b T i' hb hb' hl
      by_cases q : b = a ∧ T = TP
      · obtain ⟨rfl, rfl⟩ := q
        rw [hi] at hl
        cases hl
        exact hri
      · exact hd.good b T i' hb hb' q hl

/-- The result of the dynamic programming. -/
theorem srfDp_right (bp : BpSet) {I : Nat} (hI : I ≤ 100) (J : Nat) : Right (srfDp bp I J) (segs bp I 1 (fullCov J)) := by
  obtain ⟨h1, h2, _⟩ := fillRec_spec bp hI (I + 1) 1 (fullCov J) [] (by omega) (by omega) (by omega) (fun _ _ _ _ _ h => by cases h)
  obtain ⟨i, hi⟩ := Option.isSome_iff_exists.1 h2
  have := h1 1 (fullCov J) i (Nat.le_refl _) (by omega) hi
  unfold srfDp infoOf
  rw [fullCov_eq I, hi]
  exact this

end Thot.Srf
