import Verif.LexMerge.Model
import Mathlib.Data.List.Nodup
import Mathlib.Data.List.Induction
/-!
C133: merging sorted tables adds their counts.
-/
set_option linter.unusedSectionVars false

namespace Thot.LexMerge

open Thot Thot.Sum

variable {S T : Type} [LinearOrder S] [LinearOrder T]

/-! ### Specification -/

/-- The order of records. -/
def kLt (a b : Rec S T) : Prop := a.s < b.s ∨ (a.s = b.s ∧ a.t < b.t)

/-- A sorted table: keys strictly increasing (so each pair of events has one record), and records of the same source have the
same denominator. -/
def Table (l : List (Rec S T)) : Prop := l.Pairwise kLt ∧ ∀ a ∈ l, ∀ b ∈ l, a.s = b.s → a.den = b.den

/-- The numerator of a pair in a table (0 if there is none). -/
def numOf (l : List (Rec S T)) (s : S) (t : T) : Rat := sumBy (fun r => if r.s = s ∧ r.t = t then r.num else 0) l

/-- The denominator of a source in a table (0 if there is none). -/
def denOf (l : List (Rec S T)) (s : S) : Rat :=
  match l.find? (fun r => decide (r.s = s)) with
  | some r => r.den
  | none => 0

/-! ### The order of the entries -/

theorem cmp_iff (a b : Rec S T) : cmp a b = true ↔ kLt b a := by
  unfold cmp kLt
  by_cases h1 : b.s < a.s
  · simp [h1]
  · by_cases h2 : a.s < b.s
    · rw [if_neg h1, if_pos h2]
      simp only [Bool.false_eq_true, false_iff]
      rintro (h | ⟨h, _⟩)
      · exact h1 h
      · exact absurd h2 (by rw [h]; exact lt_irrefl _)
    · have e : b.s = a.s := le_antisymm (not_lt.1 h2) (not_lt.1 h1)
      rw [if_neg h1, if_neg h2]
      by_cases h3 : b.t < a.t
      · simp [h3, e]
      · simp [h3, e]

theorem kLt_trans {a b c : Rec S T} (h1 : kLt a b) (h2 : kLt b c) : kLt a c := by
  unfold kLt at *
  rcases h1 with h1 | ⟨e1, h1⟩ <;> rcases h2 with h2 | ⟨e2, h2⟩
  · exact Or.inl (lt_trans h1 h2)
  · exact Or.inl (e2 ▸ h1)
  · exact Or.inl (e1 ▸ h2)
  · exact Or.inr ⟨e1.trans e2, lt_trans h1 h2⟩

theorem kLt_irrefl (a : Rec S T) : ¬ kLt a a := by
  rintro (h | ⟨_, h⟩) <;> exact lt_irrefl _ h

/-- `a` is not after `b`. -/
theorem not_kLt_trans {a b c : Rec S T} (h1 : ¬ kLt b a) (h2 : kLt b c) : ¬ kLt c a := fun h => h1 (kLt_trans h2 h)

/-- What remains to be emitted. -/
def remaining (k : Nat) (q : List (Ent S T)) (rest : Nat → List (Rec S T)) : List (Ent S T) :=
  q ++ (List.range k).flatMap fun i => (rest i).map fun r => ⟨r, i⟩

/-- Invariant: the file positions of the entries in the queue are sorted after them, and every file that is not exhausted
has an entry in the queue. -/
structure QInv (k : Nat) (q : List (Ent S T)) (rest : Nat → List (Rec S T)) : Prop where
  bound : ∀ e ∈ q, e.id < k
  head : ∀ e ∈ q, (e.r :: rest e.id).Pairwise kLt
  covered : ∀ i, i < k → rest i ≠ [] → ∃ e ∈ q, e.id = i
  one : (q.map fun e => e.id).Nodup

theorem readNext_id {rest : Nat → List (Rec S T)} {i : Nat} {e : Ent S T} (h : e ∈ readNext rest i) :
    e.id = i ∧ rest i = e.r :: (rest i).tail := by
  unfold readNext at h
  split at h
  · cases h
  · rename_i r l hr
    rw [List.mem_singleton] at h
    subst h
    exact ⟨rfl, by rw [hr]; rfl⟩

theorem readNext_ids (rest : Nat → List (Rec S T)) (i : Nat) :
    ((readNext rest i).map fun e => e.id) = if rest i = [] then [] else [i] := by
  unfold readNext
  split
  · rename_i h; rw [h]; rfl
  · rename_i r l h
    rw [if_neg (by rw [h]; exact List.cons_ne_nil _ _)]; rfl

theorem qinv_next {k : Nat} {q1 q2 : List (Ent S T)} {e : Ent S T} {rest : Nat → List (Rec S T)}
    (h : QInv k (q1 ++ e :: q2) rest) : QInv k (readNext rest e.id ++ (q1 ++ q2)) (advance rest e.id) := by
  have hsub : ∀ x ∈ q1 ++ q2, x ∈ q1 ++ e :: q2 := by
    intro x hx
    rcases List.mem_append.1 hx with hx | hx
    · exact List.mem_append_left _ hx
    · exact List.mem_append_right _ (List.mem_cons_of_mem _ hx)
  have hid : ∀ x ∈ q1 ++ q2, x.id ≠ e.id := by
    intro x hx heq
    have := h.one
    rw [List.map_append, List.map_cons, List.nodup_middle, List.nodup_cons, ← List.map_append] at this
    exact this.1 (List.mem_map.2 ⟨x, hx, heq⟩)
  have he : e ∈ q1 ++ e :: q2 := List.mem_append_right _ List.mem_cons_self
  refine ⟨?_, ?_, ?_, ?_⟩
  · intro x hx
    rcases List.mem_append.1 hx with hx | hx
    · rw [(readNext_id hx).1]; exact h.bound e he
    · exact h.bound x (hsub x hx)
  · intro x hx
    rcases List.mem_append.1 hx with hx | hx
    · obtain ⟨a, b⟩ := readNext_id hx
      unfold advance
      rw [a, if_pos rfl, ← b]
      exact (List.pairwise_cons.1 (h.head e he)).2
    · unfold advance
      rw [if_neg (hid x hx)]
      exact h.head x (hsub x hx)
  · intro i hi hne
    unfold advance at hne
    by_cases hie : i = e.id
    · subst hie
      rw [if_pos rfl] at hne
      cases hr : rest e.id with
      | nil => rw [hr] at hne; exact absurd rfl hne
      | cons r l =>
        refine ⟨⟨r, e.id⟩, List.mem_append_left _ ?_, rfl⟩
        unfold readNext
        rw [hr]
        exact List.mem_singleton.2 rfl
    · rw [if_neg hie] at hne
      obtain ⟨x, hx, hxi⟩ := h.covered i hi hne
      refine ⟨x, List.mem_append_right _ ?_, hxi⟩
      rcases List.mem_append.1 hx with hx | hx
      · exact List.mem_append_left _ hx
      · rcases List.mem_cons.1 hx with rfl | hx
        · exact absurd hxi.symm hie
        · exact List.mem_append_right _ hx
  · rw [List.map_append, readNext_ids]
    have hn : ((q1 ++ q2).map fun e => e.id).Nodup := by
      have := h.one
      rw [List.map_append, List.map_cons, List.nodup_middle, List.nodup_cons, ← List.map_append] at this
      exact this.2
    split
    · exact hn
    · rw [List.singleton_append, List.nodup_cons]
      refine ⟨fun hm => ?_, hn⟩
      obtain ⟨x, hx, hxe⟩ := List.mem_map.1 hm
      exact hid x hx hxe

theorem flatMap_advance (k : Nat) (rest : Nat → List (Rec S T)) (i : Nat) (hi : i < k) :
    (readNext rest i ++ (List.range k).flatMap fun j => (advance rest i j).map fun r => (⟨r, j⟩ : Ent S T)).Perm
      ((List.range k).flatMap fun j => (rest j).map fun r => (⟨r, j⟩ : Ent S T)) := by
  obtain ⟨a, b, hab⟩ : ∃ a b, List.range k = a ++ i :: b := List.append_of_mem (List.mem_range.2 hi)
  have hnd : (List.range k).Nodup := List.nodup_range
  rw [hab] at hnd ⊢
  rw [List.nodup_middle, List.nodup_cons] at hnd
  have hc : ∀ l : List Nat, i ∉ l → (l.flatMap fun j => (advance rest i j).map fun r => (⟨r, j⟩ : Ent S T)) =
      l.flatMap fun j => (rest j).map fun r => (⟨r, j⟩ : Ent S T) := by
    intro l hl
    rw [List.flatMap_def, List.flatMap_def]
    congr 1
    apply List.map_congr_left
    intro j hj
    unfold advance
    rw [if_neg (fun e : j = i => hl (e ▸ hj))]
  rw [List.flatMap_append, List.flatMap_cons, List.flatMap_append, List.flatMap_cons,
    hc a (fun h => hnd.1 (List.mem_append_left _ h)), hc b (fun h => hnd.1 (List.mem_append_right _ h))]
  have hi' : readNext rest i ++ (advance rest i i).map (fun r => (⟨r, i⟩ : Ent S T)) = (rest i).map fun r => ⟨r, i⟩ := by
    unfold readNext advance
    rw [if_pos rfl]
    cases rest i <;> rfl
  rw [← hi']
  rw [← List.append_assoc, ← List.append_assoc, ← List.append_assoc (List.flatMap _ a), ← List.append_assoc (List.flatMap _ a)]
  exact (List.perm_append_comm.append_right _).append_right _

/-- The emitted entries are all the entries of the files, in order. -/
theorem emits_spec {k : Nat} {q : List (Ent S T)} {rest : Nat → List (Rec S T)} {es : List (Ent S T)}
    (h : Emits q rest es) : QInv k q rest →
    es.Perm (remaining k q rest) ∧ es.Pairwise (fun a b => ¬ kLt b.r a.r) := by
  induction h with
  | done rest =>
    intro hi
    have : ((List.range k).flatMap fun i => (rest i).map fun r => (⟨r, i⟩ : Ent S T)) = [] := by
      rw [List.flatMap_eq_nil_iff]
      intro i hk
      rw [List.map_eq_nil_iff]
      apply Classical.byContradiction
      intro hne
      obtain ⟨e, he, _⟩ := hi.covered i (List.mem_range.1 hk) hne
      cases he
    refine ⟨?_, List.Pairwise.nil⟩
    unfold remaining
    rw [this]
    exact List.Perm.refl _
  | next q1 q2 e rest es top h ih =>
    intro hi
    have hi' := qinv_next hi
    obtain ⟨p1, p2⟩ := ih hi'
    have hek := hi.bound e (List.mem_append_right _ List.mem_cons_self)
    have hperm : (e :: es).Perm (remaining k (q1 ++ e :: q2) rest) := by
      unfold remaining at p1 ⊢
      have f := flatMap_advance k rest e.id hek
      calc (e :: es).Perm (e :: (readNext rest e.id ++ (q1 ++ q2) ++
              (List.range k).flatMap fun i => (advance rest e.id i).map fun r => (⟨r, i⟩ : Ent S T))) := p1.cons e
        _ |>.Perm (e :: ((q1 ++ q2) ++ (readNext rest e.id ++
              (List.range k).flatMap fun i => (advance rest e.id i).map fun r => (⟨r, i⟩ : Ent S T)))) := by
            apply List.Perm.cons
            rw [List.append_assoc, ← List.append_assoc (q1 ++ q2), ← List.append_assoc]
            exact List.perm_append_comm.append_right _
        _ |>.Perm (e :: ((q1 ++ q2) ++ (List.range k).flatMap fun i => (rest i).map fun r => (⟨r, i⟩ : Ent S T))) :=
            (f.append_left _).cons e
        _ |>.Perm _ := by
            rw [← List.cons_append]
            exact List.perm_middle.symm.append_right _
    refine ⟨hperm, List.pairwise_cons.2 ⟨?_, p2⟩⟩
    intro x hx
    have hxr : x ∈ remaining k (q1 ++ e :: q2) rest := hperm.mem_iff.1 (List.mem_cons_of_mem _ hx)
    have htop : ∀ e' ∈ q1 ++ e :: q2, ¬ kLt e'.r e.r := by
      intro e' he' hk
      have := top e' he'
      rw [(cmp_iff e.r e'.r).2 hk] at this
      cases this
    unfold remaining at hxr
    rcases List.mem_append.1 hxr with hxq | hxq
    · exact htop x hxq
    · obtain ⟨i, hik, hxi⟩ := List.mem_flatMap.1 hxq
      obtain ⟨r, hr, rfl⟩ := List.mem_map.1 hxi
      obtain ⟨e', he', hid⟩ := hi.covered i (List.mem_range.1 hik) (List.ne_nil_of_mem hr)
      have hp := (List.pairwise_cons.1 (hi.head e' he')).1 r (by rw [hid]; exact hr)
      exact not_kLt_trans (htop e' he') hp

theorem qinv_init (files : Nat → List (Rec S T)) (k : Nat) (hf : ∀ i, i < k → (files i).Pairwise kLt) :
    QInv k (initQueue files k) (fun i => (files i).tail) := by
  refine ⟨?_, ?_, ?_, ?_⟩
  · intro e he
    obtain ⟨i, hi, he⟩ := List.mem_flatMap.1 he
    rw [(readNext_id he).1]; exact List.mem_range.1 hi
  · intro e he
    obtain ⟨i, hi, he⟩ := List.mem_flatMap.1 he
    obtain ⟨a, b⟩ := readNext_id he
    rw [a, ← b]
    exact hf i (List.mem_range.1 hi)
  · intro i hi hne
    cases hr : files i with
    | nil => rw [hr] at hne; exact absurd rfl hne
    | cons r l =>
      refine ⟨⟨r, i⟩, List.mem_flatMap.2 ⟨i, List.mem_range.2 hi, ?_⟩, rfl⟩
      unfold readNext
      rw [hr]
      exact List.mem_singleton.2 rfl
  · have : ((initQueue files k).map fun e => e.id).Sublist (List.range k) := by
      unfold initQueue
      rw [List.map_flatMap]
      generalize List.range k = l
      induction l with
      | nil => exact List.Sublist.refl _
      | cons i l ih =>
        rw [List.flatMap_cons, readNext_ids]
        split
        · exact ih.cons i
        · exact ih.cons_cons i
    exact this.nodup List.nodup_range

/-- All the entries of the files. -/
def allEnts (files : Nat → List (Rec S T)) (k : Nat) : List (Ent S T) :=
  (List.range k).flatMap fun i => (files i).map fun r => ⟨r, i⟩

theorem remaining_init (files : Nat → List (Rec S T)) (k : Nat) :
    (remaining k (initQueue files k) (fun i => (files i).tail)).Perm (allEnts files k) := by
  unfold remaining initQueue allEnts
  generalize List.range k = l
  induction l with
  | nil => exact List.Perm.refl _
  | cons i l ih =>
    rw [List.flatMap_cons, List.flatMap_cons, List.flatMap_cons]
    have hi' : readNext files i ++ (files i).tail.map (fun r => (⟨r, i⟩ : Ent S T)) = (files i).map fun r => ⟨r, i⟩ := by
      unfold readNext
      cases files i <;> rfl
    rw [← hi']
    have : ∀ a b c d x : List (Ent S T), (b ++ d).Perm x → (a ++ b ++ (c ++ d)).Perm (a ++ c ++ x) := by
      intro a b c d x h
      rw [List.append_assoc, List.append_assoc]
      apply List.Perm.append_left
      rw [← List.append_assoc]
      refine (List.perm_append_comm.append_right d).trans ?_
      rw [List.append_assoc]
      exact h.append_left c
    exact this _ _ _ _ _ ih

/-! ### Groups -/

/-- Invariant of the loop of `printCounts` after the entries `p`. -/
theorem pc_spec (s : S) (lc : Rat) (x : T × Rat) (rest : List (T × Rat)) :
    (x :: rest).Pairwise (fun a b => a.1 ≤ b.1) →
    let st := rest.foldl (pcStep s lc) (x.1, x.2, [])
    (∀ y ∈ x :: rest, y.1 ≤ st.1) ∧ (∃ y ∈ x :: rest, y.1 = st.1) ∧
    st.2.1 = sumBy (fun y => if y.1 = st.1 then y.2 else 0) (x :: rest) ∧
    st.2.2.Pairwise kLt ∧ (∀ r ∈ st.2.2, r.t < st.1) ∧
    ∀ r, r ∈ st.2.2 ↔ r.s = s ∧ r.den = lc ∧ r.t ≠ st.1 ∧ (∃ y ∈ x :: rest, y.1 = r.t) ∧
      r.num = sumBy (fun y => if y.1 = r.t then y.2 else 0) (x :: rest) := by
  induction rest using List.reverseRecOn with
  | nil =>
    intro _
    dsimp only [List.foldl_nil]
    refine ⟨?_, ⟨x, List.mem_cons_self, rfl⟩, ?_, List.Pairwise.nil, fun r h => (by cases h), ?_⟩
    · intro y hy; rw [List.mem_singleton] at hy; rw [hy]
    · rw [sumBy_cons, sumBy_nil, if_pos rfl]; grind
    · intro r
      constructor
      · intro h; cases h
      · rintro ⟨_, _, h3, ⟨y, hy, hyt⟩, _⟩
        rw [List.mem_singleton] at hy
        exact absurd (hyt.symm.trans (by rw [hy])) h3
  | append_singleton rest z ih =>
    intro hp
    rw [← List.cons_append, List.pairwise_append] at hp
    obtain ⟨hp1, _, hp3⟩ := hp
    obtain ⟨i1, i2, i3, i4, i5, i6⟩ := ih hp1
    dsimp only at i1 i2 i3 i4 i5 i6 ⊢
    have hf : (rest ++ [z]).foldl (pcStep s lc) (x.1, x.2, []) = pcStep s lc (rest.foldl (pcStep s lc) (x.1, x.2, [])) z := by
      rw [List.foldl_append]; rfl
    rw [hf]
    generalize rest.foldl (pcStep s lc) (x.1, x.2, []) = st at i1 i2 i3 i4 i5 i6
    rw [← List.cons_append]
    have hle : st.1 ≤ z.1 := by
      obtain ⟨y, hy, hyt⟩ := i2
      rw [← hyt]
      exact hp3 y hy z (List.mem_singleton.2 rfl)
    have hsum : ∀ u : T, sumBy (fun y => if y.1 = u then y.2 else 0) (x :: rest ++ [z]) =
        sumBy (fun y => if y.1 = u then y.2 else 0) (x :: rest) + (if z.1 = u then z.2 else 0) := by
      intro u
      rw [sumBy_append, sumBy_cons (l := []), sumBy_nil]; grind
    by_cases hz : st.1 = z.1
    · have e : pcStep s lc st z = (st.1, st.2.1 + z.2, st.2.2) := if_pos hz
      rw [e]
      refine ⟨?_, ?_, ?_, i4, i5, ?_⟩
      · intro y hy
        rcases List.mem_append.1 hy with hy | hy
        · exact i1 y hy
        · rw [List.mem_singleton.1 hy, hz]
      · obtain ⟨y, hy, hyt⟩ := i2
        exact ⟨y, List.mem_append_left _ hy, hyt⟩
      · rw [hsum, if_pos hz.symm, ← i3]
      · intro r
        rw [i6 r, hsum]
        constructor
        · rintro ⟨a, b, c, ⟨y, hy, hyt⟩, d⟩
          refine ⟨a, b, c, ⟨y, List.mem_append_left _ hy, hyt⟩, ?_⟩
          rw [if_neg (fun h => c (hz.trans h).symm), d]; grind
        · rintro ⟨a, b, c, ⟨y, hy, hyt⟩, d⟩
          rw [if_neg (fun h => c (hz.trans h).symm)] at d
          refine ⟨a, b, c, ⟨y, ?_, hyt⟩, by rw [d]; grind⟩
          rcases List.mem_append.1 hy with hy | hy
          · exact hy
          · rw [List.mem_singleton.1 hy] at hyt
            exact absurd (hz.trans hyt).symm c
    · have e : pcStep s lc st z = (z.1, z.2, st.2.2 ++ [⟨s, st.1, st.2.1, lc⟩]) := if_neg hz
      rw [e]
      have hlt : st.1 < z.1 := lt_of_le_of_ne hle hz
      refine ⟨?_, ⟨z, List.mem_append_right _ (List.mem_singleton.2 rfl), rfl⟩, ?_, ?_, ?_, ?_⟩
      · intro y hy
        rcases List.mem_append.1 hy with hy | hy
        · exact le_of_lt (lt_of_le_of_lt (i1 y hy) hlt)
        · rw [List.mem_singleton.1 hy]
      · rw [hsum, if_pos rfl, sumBy_zero]
        · grind
        · intro y hy
          rw [if_neg]
          intro h
          have := lt_of_le_of_lt (i1 y hy) hlt
          rw [h] at this
          exact lt_irrefl _ this
      · rw [List.pairwise_append]
        refine ⟨i4, List.pairwise_singleton _ _, ?_⟩
        intro r hr r' hr'
        rw [List.mem_singleton] at hr'
        subst hr'
        exact Or.inr ⟨((i6 r).1 hr).1, i5 r hr⟩
      · intro r hr
        rcases List.mem_append.1 hr with hr | hr
        · exact lt_trans (i5 r hr) hlt
        · rw [List.mem_singleton.1 hr]; exact hlt
      · intro r
        rw [List.mem_append, List.mem_singleton, i6 r, hsum]
        constructor
        · rintro (⟨a, b, c, ⟨y, hy, hyt⟩, d⟩ | rfl)
          · have hne : r.t ≠ z.1 := by
              intro h
              have := lt_of_le_of_lt (i1 y hy) hlt
              rw [hyt, h] at this
              exact lt_irrefl _ this
            refine ⟨a, b, hne, ⟨y, List.mem_append_left _ hy, hyt⟩, ?_⟩
            rw [if_neg (fun h => hne h.symm), d]; grind
          · dsimp only
            obtain ⟨y, hy, hyt⟩ := i2
            refine ⟨rfl, rfl, hz, ⟨y, List.mem_append_left _ hy, hyt⟩, ?_⟩
            rw [if_neg (fun h => hz h.symm), ← i3]; grind
        · rintro ⟨a, b, c, ⟨y, hy, hyt⟩, d⟩
          rw [if_neg (fun h => c h.symm)] at d
          have hy' : y ∈ x :: rest := by
            rcases List.mem_append.1 hy with hy | hy
            · exact hy
            · rw [List.mem_singleton.1 hy] at hyt
              exact absurd hyt.symm c
          by_cases hst : r.t = st.1
          · refine Or.inr ?_
            obtain ⟨rs, rt, rn, rd⟩ := r
            dsimp only at a b d hst
            subst a b hst
            rw [i3, d]
            congr 1
            grind
          · exact Or.inl ⟨a, b, hst, ⟨y, hy', hyt⟩, by rw [d]; grind⟩

theorem printCounts_spec (s : S) (lc : Rat) (grp : List (T × Rat)) (hne : grp ≠ [])
    (hp : grp.Pairwise (fun a b => a.1 ≤ b.1)) :
    ∃ o, printCounts s grp lc = some o ∧ o.Pairwise kLt ∧
      ∀ r, r ∈ o ↔ r.s = s ∧ r.den = lc ∧ (∃ y ∈ grp, y.1 = r.t) ∧
        r.num = sumBy (fun y => if y.1 = r.t then y.2 else 0) grp := by
  cases grp with
  | nil => exact absurd rfl hne
  | cons x rest =>
    obtain ⟨i1, i2, i3, i4, i5, i6⟩ := pc_spec s lc x rest hp
    unfold printCounts
    dsimp only at i1 i2 i3 i4 i5 i6 ⊢
    generalize rest.foldl (pcStep s lc) (x.1, x.2, []) = st at i1 i2 i3 i4 i5 i6
    refine ⟨_, rfl, ?_, ?_⟩
    · rw [List.pairwise_append]
      refine ⟨i4, List.pairwise_singleton _ _, ?_⟩
      intro r hr r' hr'
      rw [List.mem_singleton] at hr'
      subst hr'
      exact Or.inr ⟨((i6 r).1 hr).1, i5 r hr⟩
    · intro r
      rw [List.mem_append, List.mem_singleton, i6 r]
      constructor
      · rintro (⟨a, b, c, d, e⟩ | rfl)
        · exact ⟨a, b, d, e⟩
        · exact ⟨rfl, rfl, i2, i3⟩
      · rintro ⟨a, b, d, e⟩
        by_cases hst : r.t = st.1
        · refine Or.inr ?_
          obtain ⟨rs, rt, rn, rd⟩ := r
          dsimp only at a b e hst
          subst a b hst
          rw [i3, e]
        · exact Or.inl ⟨a, b, hst, d, e⟩

/-! ### The main loop -/

/-- The denominator collected for source `s` from entries `p`. -/
def denSeen (dn : Nat → S → Rat) (k : Nat) (p : List (Ent S T)) (s : S) : Rat :=
  sumBy (fun i => if ∃ e ∈ p, e.r.s = s ∧ e.id = i then dn i s else 0) (List.range k)

/-- The numerator collected for a pair. -/
def numSeen (p : List (Ent S T)) (s : S) (t : T) : Rat := sumBy (fun e => if e.r.s = s ∧ e.r.t = t then e.r.num else 0) p

/-- The record of a pair is the right one for the entries `p`. -/
def Good (dn : Nat → S → Rat) (k : Nat) (p : List (Ent S T)) (r : Rec S T) : Prop :=
  (∃ e ∈ p, e.r.s = r.s ∧ e.r.t = r.t) ∧ r.num = numSeen p r.s r.t ∧ r.den = denSeen dn k p r.s

theorem denSeen_snoc (dn : Nat → S → Rat) (k : Nat) (p : List (Ent S T)) (e : Ent S T) (hk : e.id < k) (s : S) :
    denSeen dn k (p ++ [e]) s = denSeen dn k p s +
      (if e.r.s = s ∧ ¬ ∃ e' ∈ p, e'.r.s = s ∧ e'.id = e.id then dn e.id s else 0) := by
  unfold denSeen
  have : (if e.r.s = s ∧ ¬ ∃ e' ∈ p, e'.r.s = s ∧ e'.id = e.id then dn e.id s else 0) =
      sumBy (fun i => if i = e.id then (if e.r.s = s ∧ ¬ ∃ e' ∈ p, e'.r.s = s ∧ e'.id = e.id then dn e.id s else 0) else 0)
        (List.range k) := by
    rw [sumBy_single e.id _ List.nodup_range, if_pos (List.mem_range.2 hk)]
  rw [this, ← sumBy_add]
  apply sumBy_congr
  intro i _
  by_cases hie : i = e.id
  · subst hie
    by_cases hs : e.r.s = s
    · by_cases hp : ∃ e' ∈ p, e'.r.s = s ∧ e'.id = e.id
      · have h2 : ∃ e' ∈ p ++ [e], e'.r.s = s ∧ e'.id = e.id := by
          obtain ⟨e', h1, h2⟩ := hp
          exact ⟨e', List.mem_append_left _ h1, h2⟩
        rw [if_pos h2, if_pos hp, if_pos rfl, if_neg (fun h => h.2 hp)]; grind
      · have h2 : ∃ e' ∈ p ++ [e], e'.r.s = s ∧ e'.id = e.id :=
          ⟨e, List.mem_append_right _ (List.mem_singleton.2 rfl), hs, rfl⟩
        rw [if_pos h2, if_neg hp, if_pos rfl, if_pos ⟨hs, hp⟩]; grind
    · have : (∃ e' ∈ p ++ [e], e'.r.s = s ∧ e'.id = e.id) ↔ ∃ e' ∈ p, e'.r.s = s ∧ e'.id = e.id := by
        constructor
        · rintro ⟨e', h1, h2⟩
          rcases List.mem_append.1 h1 with h1 | h1
          · exact ⟨e', h1, h2⟩
          · rw [List.mem_singleton.1 h1] at h2; exact absurd h2.1 hs
        · rintro ⟨e', h1, h2⟩
          exact ⟨e', List.mem_append_left _ h1, h2⟩
      rw [if_pos rfl, if_neg (c := e.r.s = s ∧ _) (fun h => hs h.1)]
      simp only [this]
      grind
  · have : (∃ e' ∈ p ++ [e], e'.r.s = s ∧ e'.id = i) ↔ ∃ e' ∈ p, e'.r.s = s ∧ e'.id = i := by
      constructor
      · rintro ⟨e', h1, h2⟩
        rcases List.mem_append.1 h1 with h1 | h1
        · exact ⟨e', h1, h2⟩
        · rw [List.mem_singleton.1 h1] at h2; exact absurd h2.2.symm hie
      · rintro ⟨e', h1, h2⟩
        exact ⟨e', List.mem_append_left _ h1, h2⟩
    rw [if_neg (c := i = e.id) hie]
    simp only [this]
    grind

/-- Invariant of the main loop after the entries `p`, `src` being the current source. -/
structure LInv (dn : Nat → S → Rat) (k : Nat) (p : List (Ent S T)) (src : S) (st : St S T) : Prop where
  hsrc : st.src = some src
  last : ∃ e ∈ p, e.r.s = src
  le : ∀ e ∈ p, e.r.s ≤ src
  grp : st.grp = (p.filter fun e => decide (e.r.s = src)).map fun e => (e.r.t, e.r.num)
  chunks : ∀ i, i ∈ st.chunks ↔ ∃ e ∈ p, e.r.s = src ∧ e.id = i
  lc : st.lc = denSeen dn k p src
  out : ∃ o, st.out = some o ∧ o.Pairwise kLt ∧ ∀ r, r ∈ o ↔ r.s ≠ src ∧ Good dn k p r

theorem numSeen_snoc (p : List (Ent S T)) (e : Ent S T) (s : S) (t : T) :
    numSeen (p ++ [e]) s t = numSeen p s t + (if e.r.s = s ∧ e.r.t = t then e.r.num else 0) := by
  unfold numSeen
  rw [sumBy_append, sumBy_cons, sumBy_nil]; grind

/-- A new entry of another source does not change the records of the other ones. -/
theorem good_snoc {dn : Nat → S → Rat} {k : Nat} {p : List (Ent S T)} {e : Ent S T} (hk : e.id < k) {r : Rec S T}
    (h : r.s ≠ e.r.s) : Good dn k (p ++ [e]) r ↔ Good dn k p r := by
  unfold Good
  rw [numSeen_snoc, if_neg (fun x => h x.1.symm), denSeen_snoc dn k p e hk, if_neg (fun x => h x.1.symm)]
  have : (∃ e' ∈ p ++ [e], e'.r.s = r.s ∧ e'.r.t = r.t) ↔ ∃ e' ∈ p, e'.r.s = r.s ∧ e'.r.t = r.t := by
    constructor
    · rintro ⟨e', h1, h2⟩
      rcases List.mem_append.1 h1 with h1 | h1
      · exact ⟨e', h1, h2⟩
      · rw [List.mem_singleton.1 h1] at h2; exact absurd h2.1.symm h
    · rintro ⟨e', h1, h2⟩
      exact ⟨e', List.mem_append_left _ h1, h2⟩
  rw [this]
  grind

theorem numSeen_group (p : List (Ent S T)) (s : S) (t : T) :
    sumBy (fun y : T × Rat => if y.1 = t then y.2 else 0) ((p.filter fun e => decide (e.r.s = s)).map fun e => (e.r.t, e.r.num)) =
      numSeen p s t := by
  rw [sumBy_map, sumBy_filter]
  unfold numSeen
  apply sumBy_congr
  intro e _
  by_cases h1 : e.r.s = s <;> by_cases h2 : e.r.t = t <;> simp [h1, h2]

/-- Printing the current group gives the records of the current source. -/
theorem print_group {dn : Nat → S → Rat} {k : Nat} {p : List (Ent S T)} {src : S} {st : St S T}
    (h : LInv dn k p src st) (hp : p.Pairwise (fun a b => ¬ kLt b.r a.r)) :
    ∃ o, append st.out (printCounts src st.grp st.lc) = some o ∧ o.Pairwise kLt ∧ ∀ r, r ∈ o ↔ Good dn k p r := by
  obtain ⟨o, ho, ho1, ho2⟩ := h.out
  have hgrp : st.grp ≠ [] := by
    rw [h.grp]
    obtain ⟨e, he, hs⟩ := h.last
    intro hn
    rw [List.map_eq_nil_iff, List.filter_eq_nil_iff] at hn
    exact hn e he (decide_eq_true hs)
  have hsort : st.grp.Pairwise (fun a b => a.1 ≤ b.1) := by
    rw [h.grp, List.pairwise_map]
    have h1 : (p.filter fun e => decide (e.r.s = src)).Pairwise (fun a b => ¬ kLt b.r a.r) := hp.filter _
    refine List.Pairwise.imp_of_mem ?_ h1
    intro a b ha hb hab
    have ea := of_decide_eq_true (List.mem_filter.1 ha).2
    have eb := of_decide_eq_true (List.mem_filter.1 hb).2
    exact not_lt.1 fun hlt => hab (Or.inr ⟨eb.trans ea.symm, hlt⟩)
  obtain ⟨q, hq, hq1, hq2⟩ := printCounts_spec src st.lc st.grp hgrp hsort
  rw [ho, hq]
  refine ⟨o ++ q, rfl, ?_, ?_⟩
  · rw [List.pairwise_append]
    refine ⟨ho1, hq1, ?_⟩
    intro a ha b hb
    obtain ⟨hne, ⟨e, he, hes, _⟩, _⟩ := (ho2 a).1 ha
    rw [← hes] at hne
    refine Or.inl ?_
    rw [← hes, ((hq2 b).1 hb).1]
    exact lt_of_le_of_ne (h.le e he) hne
  · intro r
    rw [List.mem_append, ho2 r, hq2 r]
    constructor
    · rintro (⟨_, hg⟩ | ⟨a, b, ⟨y, hy, hyt⟩, c⟩)
      · exact hg
      · rw [h.grp] at hy c
        obtain ⟨e, he, rfl⟩ := List.mem_map.1 hy
        refine ⟨⟨e, (List.mem_filter.1 he).1, (of_decide_eq_true (List.mem_filter.1 he).2).trans a.symm, hyt⟩, ?_, ?_⟩
        · rw [c, numSeen_group, a]
        · rw [b, h.lc, a]
    · intro hg
      by_cases hs : r.s = src
      · refine Or.inr ⟨hs, ?_, ?_, ?_⟩
        · rw [hg.2.2, h.lc, hs]
        · obtain ⟨e, he, he1, he2⟩ := hg.1
          rw [h.grp]
          exact ⟨_, List.mem_map.2 ⟨e, List.mem_filter.2 ⟨he, decide_eq_true (he1.trans hs)⟩, rfl⟩, he2⟩
        · rw [h.grp, numSeen_group, hg.2.1, hs]
      · exact Or.inl ⟨hs, hg⟩

theorem step_inv {dn : Nat → S → Rat} {k : Nat} {p : List (Ent S T)} {src : S} {st : St S T} (e : Ent S T)
    (h : LInv dn k p src st) (hp : (p ++ [e]).Pairwise (fun a b => ¬ kLt b.r a.r)) (hk : e.id < k)
    (hd : e.r.den = dn e.id e.r.s) : LInv dn k (p ++ [e]) e.r.s (step st e) := by
  obtain ⟨hp1, _, hp2⟩ := List.pairwise_append.1 hp
  have hle : ∀ a ∈ p, a.r.s ≤ e.r.s := by
    intro a ha
    have := hp2 a ha e (List.mem_singleton.2 rfl)
    exact not_lt.1 fun hlt => this (Or.inl hlt)
  have hle' : ∀ a ∈ p ++ [e], a.r.s ≤ e.r.s := by
    intro a ha
    rcases List.mem_append.1 ha with ha | ha
    · exact hle a ha
    · rw [List.mem_singleton.1 ha]
  have hlast : ∃ a ∈ p ++ [e], a.r.s = e.r.s := ⟨e, List.mem_append_right _ (List.mem_singleton.2 rfl), rfl⟩
  have hfil : ((p ++ [e]).filter fun a => decide (a.r.s = e.r.s)) = (p.filter fun a => decide (a.r.s = e.r.s)) ++ [e] := by
    rw [List.filter_append]; simp
  -- the state after `group`
  have hgroup : ∃ st1, group st e = st1 ∧ st1.src = some e.r.s ∧
      st1.grp = ((p ++ [e]).filter fun a => decide (a.r.s = e.r.s)).map (fun e => (e.r.t, e.r.num)) ∧
      (∀ i, i ∈ st1.chunks ↔ ∃ a ∈ p, a.r.s = e.r.s ∧ a.id = i) ∧ st1.lc = denSeen dn k p e.r.s ∧
      ∃ o, st1.out = some o ∧ o.Pairwise kLt ∧ ∀ r, r ∈ o ↔ r.s ≠ e.r.s ∧ Good dn k (p ++ [e]) r := by
    unfold group
    rw [h.hsrc]
    dsimp only
    by_cases hs : src ≠ e.r.s
    · rw [if_pos hs]
      have hno : ∀ a ∈ p, a.r.s ≠ e.r.s := by
        intro a ha heq
        obtain ⟨b, hb, hbs⟩ := h.last
        have h1 := h.le a ha
        have h2 := hle b hb
        rw [hbs] at h2
        rw [heq] at h1
        exact hs (le_antisymm h2 h1)
      refine ⟨_, rfl, rfl, ?_, ?_, ?_, ?_⟩
      · rw [hfil]
        have : (p.filter fun a => decide (a.r.s = e.r.s)) = [] := by
          rw [List.filter_eq_nil_iff]
          intro a ha
          simpa using hno a ha
        rw [this]; rfl
      · intro i
        constructor
        · intro hi; cases hi
        · rintro ⟨a, ha, has, _⟩; exact absurd has (hno a ha)
      · unfold denSeen
        rw [sumBy_zero]
        intro i _
        rw [if_neg]
        rintro ⟨a, ha, has, _⟩; exact hno a ha has
      · obtain ⟨o, ho, ho1, ho2⟩ := print_group h hp1
        refine ⟨o, ho, ho1, ?_⟩
        intro r
        rw [ho2 r]
        constructor
        · intro hg
          have hne : r.s ≠ e.r.s := by
            obtain ⟨a, ha, has, _⟩ := hg.1
            rw [← has]; exact hno a ha
          exact ⟨hne, (good_snoc hk hne).2 hg⟩
        · rintro ⟨hne, hg⟩
          exact (good_snoc hk hne).1 hg
    · rw [if_neg hs]
      have hs' : src = e.r.s := not_not.1 hs
      refine ⟨_, rfl, congrArg some hs', ?_, ?_, ?_, ?_⟩
      · dsimp only
        rw [hfil, List.map_append, h.grp, hs']; rfl
      · intro i; rw [← hs']; exact h.chunks i
      · rw [← hs']; exact h.lc
      · obtain ⟨o, ho, ho1, ho2⟩ := h.out
        refine ⟨o, ho, ho1, ?_⟩
        intro r
        rw [ho2 r, hs']
        constructor
        · rintro ⟨hne, hg⟩; exact ⟨hne, (good_snoc hk hne).2 hg⟩
        · rintro ⟨hne, hg⟩; exact ⟨hne, (good_snoc hk hne).1 hg⟩
  obtain ⟨st1, hst1, g1, g2, g3, g4, g5⟩ := hgroup
  unfold step
  rw [hst1]
  dsimp only
  have hch : ∀ i, (∃ a ∈ p ++ [e], a.r.s = e.r.s ∧ a.id = i) ↔ i = e.id ∨ ∃ a ∈ p, a.r.s = e.r.s ∧ a.id = i := by
    intro i
    constructor
    · rintro ⟨a, ha, h1, h2⟩
      rcases List.mem_append.1 ha with ha | ha
      · exact Or.inr ⟨a, ha, h1, h2⟩
      · rw [List.mem_singleton.1 ha] at h2; exact Or.inl h2.symm
    · rintro (rfl | ⟨a, ha, h1, h2⟩)
      · exact ⟨e, List.mem_append_right _ (List.mem_singleton.2 rfl), rfl, rfl⟩
      · exact ⟨a, List.mem_append_left _ ha, h1, h2⟩
  by_cases hc : e.id ∈ st1.chunks
  · rw [if_pos hc]
    have hc' := (g3 e.id).1 hc
    refine ⟨g1, hlast, hle', g2, ?_, ?_, g5⟩
    · intro i
      rw [hch, g3 i]
      constructor
      · exact Or.inr
      · rintro (rfl | hh)
        · exact hc'
        · exact hh
    · rw [g4, denSeen_snoc dn k p e hk, if_neg (fun hh => hh.2 hc')]; grind
  · rw [if_neg hc]
    have hc' : ¬ ∃ a ∈ p, a.r.s = e.r.s ∧ a.id = e.id := fun hh => hc ((g3 e.id).2 hh)
    refine ⟨g1, hlast, hle', g2, ?_, ?_, g5⟩
    · intro i
      dsimp only
      rw [hch, List.mem_cons, g3 i]
    · dsimp only
      rw [g4, denSeen_snoc dn k p e hk, if_pos ⟨rfl, hc'⟩, hd]

theorem loop_inv (dn : Nat → S → Rat) (k : Nat) (p : List (Ent S T)) (hne : p ≠ [])
    (hp : p.Pairwise (fun a b => ¬ kLt b.r a.r)) (hk : ∀ e ∈ p, e.id < k) (hd : ∀ e ∈ p, e.r.den = dn e.id e.r.s) :
    ∃ src, LInv dn k p src (p.foldl step St.init) := by
  induction p using List.reverseRecOn with
  | nil => exact absurd rfl hne
  | append_singleton p e ih =>
    have he : e ∈ p ++ [e] := List.mem_append_right _ (List.mem_singleton.2 rfl)
    have hf : (p ++ [e]).foldl step St.init = step (p.foldl step St.init) e := by
      rw [List.foldl_append]; rfl
    rw [hf]
    by_cases hpn : p = []
    · subst hpn
      refine ⟨e.r.s, ?_⟩
      have e1 : step (St.init : St S T) e =
          ⟨some e.r.s, 0 + e.r.den, [(e.r.t, e.r.num)], [e.id], some []⟩ := rfl
      rw [List.foldl_nil, e1]
      refine ⟨rfl, ⟨e, he, rfl⟩, ?_, ?_, ?_, ?_, ⟨[], rfl, List.Pairwise.nil, ?_⟩⟩
      · intro a ha
        rw [List.nil_append, List.mem_singleton] at ha; rw [ha]
      · simp
      · intro i; simp [eq_comm]
      · dsimp only
        rw [denSeen_snoc dn k [] e (hk e he), if_pos ⟨rfl, by rintro ⟨a, ha, _⟩; cases ha⟩, hd e he]
        unfold denSeen
        rw [sumBy_zero]
        intro i _
        rw [if_neg]; rintro ⟨a, ha, _⟩; cases ha
      · intro r
        constructor
        · intro h; cases h
        · rintro ⟨hn, ⟨a, ha, has, _⟩, _⟩
          rw [List.nil_append, List.mem_singleton] at ha
          rw [ha] at has
          exact absurd has.symm hn
    · obtain ⟨src, hi⟩ := ih hpn (List.pairwise_append.1 hp).1 (fun a ha => hk a (List.mem_append_left _ ha))
        (fun a ha => hd a (List.mem_append_left _ ha))
      exact ⟨e.r.s, step_inv e hi hp (hk e he) (hd e he)⟩

/-! ### C133 -/

theorem denOf_eq {l : List (Rec S T)} (h : Table l) {r : Rec S T} (hr : r ∈ l) : denOf l r.s = r.den := by
  unfold denOf
  cases hf : l.find? (fun x => decide (x.s = r.s)) with
  | none =>
    rw [List.find?_eq_none] at hf
    exact absurd (decide_eq_true rfl) (hf r hr)
  | some x =>
    exact h.2 x (List.mem_of_find?_eq_some hf) r hr (by have := List.find?_some hf; exact of_decide_eq_true this)

/-- The program on the entries of the tables in the order of their keys. -/
theorem merge_core (files : Nat → List (Rec S T)) (k : Nat) (hf : ∀ i, i < k → Table (files i))
    (hne : ∃ i, i < k ∧ files i ≠ []) (es : List (Ent S T)) (hperm : es.Perm (allEnts files k))
    (p2 : es.Pairwise (fun a b => ¬ kLt b.r a.r)) :
    ∃ o, finish (es.foldl step St.init) = some o ∧ Table o ∧ ∀ s t n d, (⟨s, t, n, d⟩ : Rec S T) ∈ o ↔
      (∃ i, i < k ∧ ∃ r ∈ files i, r.s = s ∧ r.t = t) ∧
      n = sumBy (fun i => numOf (files i) s t) (List.range k) ∧ d = sumBy (fun i => denOf (files i) s) (List.range k) := by
  have hmem : ∀ e : Ent S T, e ∈ es ↔ e.id < k ∧ e.r ∈ files e.id := by
    intro e
    rw [hperm.mem_iff]
    unfold allEnts
    rw [List.mem_flatMap]
    constructor
    · rintro ⟨i, hi, he⟩
      obtain ⟨r, hr, rfl⟩ := List.mem_map.1 he
      exact ⟨List.mem_range.1 hi, hr⟩
    · rintro ⟨hi, hr⟩
      exact ⟨e.id, List.mem_range.2 hi, List.mem_map.2 ⟨e.r, hr, rfl⟩⟩
  have hesne : es ≠ [] := by
    obtain ⟨i, hi, hi2⟩ := hne
    obtain ⟨r, hr⟩ := List.exists_mem_of_ne_nil _ hi2
    exact List.ne_nil_of_mem ((hmem ⟨r, i⟩).2 ⟨hi, hr⟩)
  obtain ⟨src, hi⟩ := loop_inv (fun i s => denOf (files i) s) k es hesne p2 (fun e he => ((hmem e).1 he).1)
    (fun e he => (denOf_eq (hf _ ((hmem e).1 he).1) ((hmem e).1 he).2).symm)
  obtain ⟨o, ho, ho1, ho2⟩ := print_group hi p2
  have hnum : ∀ s t, numSeen es s t = sumBy (fun i => numOf (files i) s t) (List.range k) := by
    intro s t
    unfold numSeen
    rw [sumBy_perm _ hperm]
    unfold allEnts
    rw [sumBy_flatMap]
    apply sumBy_congr
    intro i _
    rw [sumBy_map]
    rfl
  have hden : ∀ s, denSeen (fun i s => denOf (files i) s) k es s = sumBy (fun i => denOf (files i) s) (List.range k) := by
    intro s
    unfold denSeen
    apply sumBy_congr
    intro i hik
    split
    · rfl
    · rename_i hno
      unfold denOf
      rw [List.find?_eq_none.2]
      intro r hr hrs
      exact hno ⟨⟨r, i⟩, (hmem _).2 ⟨List.mem_range.1 hik, hr⟩, of_decide_eq_true hrs, rfl⟩
  refine ⟨o, ?_, ⟨ho1, ?_⟩, ?_⟩
  · unfold finish
    rw [hi.hsrc]
    exact ho
  · intro a ha b hb hab
    rw [((ho2 a).1 ha).2.2, ((ho2 b).1 hb).2.2, hab]
  · intro s t n d
    rw [ho2]
    unfold Good
    dsimp only
    rw [hnum, hden]
    have : (∃ e ∈ es, e.r.s = s ∧ e.r.t = t) ↔ ∃ i, i < k ∧ ∃ r ∈ files i, r.s = s ∧ r.t = t := by
      constructor
      · rintro ⟨e, he, h1⟩
        exact ⟨e.id, ((hmem e).1 he).1, e.r, ((hmem e).1 he).2, h1⟩
      · rintro ⟨i, hi, r, hr, h1⟩
        exact ⟨⟨r, i⟩, (hmem _).2 ⟨hi, hr⟩, h1⟩
    rw [this]

/-- C133: whatever the ties in the priority queue, merging `k` sorted tables, one of them at least not empty, writes a sorted
table with exactly one record for each pair of events in any of the tables: its numerator is the sum of those of the pair in
the tables and its denominator the sum of those of the source in the tables. -/
theorem C133_merge (files : Nat → List (Rec S T)) (k : Nat) (hf : ∀ i, i < k → Table (files i))
    (hne : ∃ i, i < k ∧ files i ≠ []) (out : Option (List (Rec S T))) (h : Merges files k out) :
    ∃ o, out = some o ∧ Table o ∧ ∀ s t n d, (⟨s, t, n, d⟩ : Rec S T) ∈ o ↔
      (∃ i, i < k ∧ ∃ r ∈ files i, r.s = s ∧ r.t = t) ∧
      n = sumBy (fun i => numOf (files i) s t) (List.range k) ∧ d = sumBy (fun i => denOf (files i) s) (List.range k) := by
  obtain ⟨es, hes, rfl⟩ := h
  obtain ⟨p1, p2⟩ := emits_spec hes (qinv_init files k fun i hi => (hf i hi).1)
  exact merge_core files k hf hne es (p1.trans (remaining_init files k)) p2

/-- C133: every run ends: there is always an output. -/
theorem C133_exists (files : Nat → List (Rec S T)) (k : Nat) : ∃ out, Merges files k out := by
  have top : ∀ q : List (Ent S T), q ≠ [] → ∃ q1 q2 e, q = q1 ++ e :: q2 ∧ ∀ e' ∈ q, cmp e.r e'.r = false := by
    intro q
    induction q with
    | nil => intro h; exact absurd rfl h
    | cons a q ih =>
      intro _
      by_cases hq : q = []
      · subst hq
        refine ⟨[], [], a, rfl, ?_⟩
        intro e' he'
        rw [List.mem_singleton.1 he']
        have := kLt_irrefl a.r
        rw [← cmp_iff] at this
        simpa using this
      · obtain ⟨q1, q2, e, rfl, he⟩ := ih hq
        by_cases hc : cmp e.r a.r = true
        · refine ⟨[], q1 ++ e :: q2, a, rfl, ?_⟩
          intro e' he'
          rcases List.mem_cons.1 he' with rfl | he'
          · have := kLt_irrefl e'.r
            rw [← cmp_iff] at this
            simpa using this
          · have h1 := he e' he'
            cases hh : cmp a.r e'.r with
            | false => rfl
            | true =>
              have := (cmp_iff _ _).2 (kLt_trans ((cmp_iff _ _).1 hh) ((cmp_iff _ _).1 hc))
              rw [h1] at this; cases this
        · refine ⟨a :: q1, q2, e, rfl, ?_⟩
          intro e' he'
          rcases List.mem_cons.1 he' with rfl | he'
          · simpa using hc
          · exact he e' he'
  have run : ∀ (n : Nat) (q : List (Ent S T)) (rest : Nat → List (Rec S T)), (∀ e ∈ q, e.id < k) →
      (remaining k q rest).length = n → ∃ es, Emits q rest es := by
    intro n
    induction n with
    | zero =>
      intro q rest _ hn
      unfold remaining at hn
      rw [List.length_eq_zero_iff, List.append_eq_nil_iff] at hn
      rw [hn.1]
      exact ⟨[], Emits.done rest⟩
    | succ n ih =>
      intro q rest hb hn
      by_cases hq : q = []
      · rw [hq]; exact ⟨[], Emits.done rest⟩
      · obtain ⟨q1, q2, e, rfl, he⟩ := top q hq
        have hek := hb e (List.mem_append_right _ List.mem_cons_self)
        obtain ⟨es, hes⟩ := ih (readNext rest e.id ++ (q1 ++ q2)) (advance rest e.id) (by
          intro x hx
          rcases List.mem_append.1 hx with hx | hx
          · rw [(readNext_id hx).1]; exact hek
          · apply hb x
            rcases List.mem_append.1 hx with hx | hx
            · exact List.mem_append_left _ hx
            · exact List.mem_append_right _ (List.mem_cons_of_mem _ hx)) (by
          have f := (flatMap_advance k rest e.id hek).length_eq
          unfold remaining at hn ⊢
          simp only [List.length_append, List.length_cons] at hn f ⊢
          omega)
        exact ⟨e :: es, Emits.next q1 q2 e rest es he hes⟩
  obtain ⟨es, hes⟩ := run _ (initQueue files k) (fun i => (files i).tail) (by
    intro e he
    obtain ⟨i, hi, he⟩ := List.mem_flatMap.1 he
    rw [(readNext_id he).1]; exact List.mem_range.1 hi) rfl
  exact ⟨_, es, hes, rfl⟩

/-- C133: if in every table the denominator of each source is the sum of its numerators, the same holds of the merged one, so
that the merged probabilities add up to one. -/
theorem C133_norm (files : Nat → List (Rec S T)) (k : Nat) (hf : ∀ i, i < k → Table (files i))
    (hne : ∃ i, i < k ∧ files i ≠ []) (o : List (Rec S T)) (h : Merges files k (some o))
    (hn : ∀ i, i < k → ∀ s, denOf (files i) s = sumBy (fun r => if r.s = s then r.num else 0) (files i)) (s : S) :
    denOf o s = sumBy (fun r => if r.s = s then r.num else 0) o := by
  obtain ⟨o', ho', ht, hm⟩ := C133_merge files k hf hne (some o) h
  cases ho'
  -- sum over the output of the numerators of s = sum over files of sums
  have hsum : sumBy (fun r => if r.s = s then r.num else 0) o =
      sumBy (fun i => sumBy (fun r => if r.s = s then r.num else 0) (files i)) (List.range k) := by
    have e1 : sumBy (fun r => if r.s = s then r.num else 0) o =
        sumBy (fun r : Rec S T => sumBy (fun i => if r.s = s then numOf (files i) r.s r.t else 0) (List.range k)) o := by
      apply sumBy_congr
      intro r hr
      by_cases hs : r.s = s
      · rw [if_pos hs, ((hm r.s r.t r.num r.den).1 hr).2.1]
        apply sumBy_congr
        intro i _
        rw [if_pos hs]
      · rw [if_neg hs, sumBy_zero]
        intro i _
        rw [if_neg hs]
    rw [e1, sumBy_comm]
    apply sumBy_congr
    intro i hi
    have e2 : ∀ r : Rec S T, (if r.s = s then numOf (files i) r.s r.t else 0) =
        sumBy (fun x => if r.s = s then (if x.s = r.s ∧ x.t = r.t then x.num else 0) else 0) (files i) := by
      intro r
      by_cases hs : r.s = s
      · rw [if_pos hs]; unfold numOf
        apply sumBy_congr
        intro x _
        rw [if_pos hs]
      · rw [if_neg hs, sumBy_zero]
        intro x _
        rw [if_neg hs]
    rw [sumBy_congr (fun r _ => e2 r), sumBy_comm]
    apply sumBy_congr
    intro x hx
    by_cases hxs : x.s = s
    · rw [if_pos hxs]
      have hin := (hm x.s x.t _ _).2 ⟨⟨i, List.mem_range.1 hi, x, hx, rfl, rfl⟩, rfl, rfl⟩
      generalize sumBy (fun i => numOf (files i) x.s x.t) (List.range k) = n at hin
      generalize sumBy (fun i => denOf (files i) x.s) (List.range k) = d at hin
      have hnd : (o.map fun r => (r.s, r.t)).Nodup := by
        rw [List.nodup_iff_pairwise_ne, List.pairwise_map]
        refine ht.1.imp ?_
        rintro a b hab he
        have := Prod.mk.inj he
        rcases hab with h | ⟨_, h⟩
        · rw [this.1] at h; exact lt_irrefl _ h
        · rw [this.2] at h; exact lt_irrefl _ h
      have e3 := sumBy_single (x.s, x.t) x.num hnd
      rw [sumBy_map, if_pos (List.mem_map.2 ⟨_, hin, rfl⟩)] at e3
      refine Eq.trans ?_ e3
      apply sumBy_congr
      intro r _
      by_cases hr : r.s = x.s ∧ r.t = x.t
      · rw [if_pos (hr.1.trans hxs), if_pos ⟨hr.1.symm, hr.2.symm⟩, if_pos (by rw [hr.1, hr.2])]
      · rw [if_neg (c := (r.s, r.t) = (x.s, x.t)) (fun he => hr (Prod.mk.inj he))]
        by_cases hs : r.s = s
        · rw [if_pos hs, if_neg (fun h => hr ⟨h.1.symm, h.2.symm⟩)]
        · rw [if_neg hs]
    · rw [if_neg hxs, sumBy_zero]
      intro r _
      by_cases hs : r.s = s
      · rw [if_pos hs, if_neg (fun h => hxs (h.1.trans hs))]
      · rw [if_neg hs]
  rw [hsum]
  by_cases hin : ∃ r ∈ o, r.s = s
  · obtain ⟨r, hr, rfl⟩ := hin
    rw [denOf_eq ht hr, ((hm r.s r.t r.num r.den).1 hr).2.2]
    apply sumBy_congr
    intro i hi
    exact hn i (List.mem_range.1 hi) r.s
  · have h0 : denOf o s = 0 := by
      unfold denOf
      rw [List.find?_eq_none.2]
      intro r hr hrs
      exact hin ⟨r, hr, of_decide_eq_true hrs⟩
    rw [h0, sumBy_zero]
    intro i hi
    apply sumBy_zero
    intro r hr
    rw [if_neg]
    intro hrs
    exact hin ⟨_, (hm r.s r.t _ _).2 ⟨⟨i, List.mem_range.1 hi, r, hr, rfl, rfl⟩, rfl, rfl⟩, hrs⟩

/-- C133: when all the tables are empty the program reads the first element of an empty vector. -/
theorem C133_empty (files : Nat → List (Rec S T)) (k : Nat) (h : ∀ i, i < k → files i = []) (out : Option (List (Rec S T)))
    (hm : Merges files k out) : out = none := by
  obtain ⟨es, hes, rfl⟩ := hm
  have : initQueue files k = [] := by
    unfold initQueue
    rw [List.flatMap_eq_nil_iff]
    intro i hi
    unfold readNext
    rw [h i (List.mem_range.1 hi)]
  rw [this] at hes
  generalize hq : ([] : List (Ent S T)) = q at hes
  cases hes with
  | done => rfl
  | next q1 q2 e _ _ _ _ => exact absurd hq.symm (by simp)

end Thot.LexMerge
