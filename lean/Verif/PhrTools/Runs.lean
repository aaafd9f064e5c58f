import Verif.SentHandler.Props
import Verif.Common.Sum
/-!
Lemmas for the table scripts: texts in the order of `LC_ALL=C sort`, and groups of consecutive lines.
-/
namespace Thot.PhrTools

open Thot
open Thot.SentHandler (joinWords Word fields_join cut_word)
open Thot.Awk (fields cut)

abbrev Str := List Char

/-- The order of `LC_ALL=C sort`: lexicographic (the order of the bytes of UTF-8 texts is the order of their characters). -/
def leText : Str → Str → Bool
  | [], _ => true
  | _ :: _, [] => false
  | a :: x, b :: y => if a < b then true else if a = b then leText x y else false

/-- A result of `LC_ALL=C sort`. -/
def IsSort (out inp : List Str) : Prop := out.Perm inp ∧ out.Pairwise fun x y => leText x y = true

/-- The texts with a common prefix are contiguous. -/
theorem prefix_between : ∀ {p a b c : Str}, p <+: a → p <+: c → leText a b = true → leText b c = true → p <+: b := by
  intro p
  induction p with
  | nil => intro a b c _ _ _ _; exact List.nil_prefix
  | cons x p ih =>
    intro a b c ha hc hab hbc
    obtain ⟨a', rfl⟩ := ha
    obtain ⟨c', rfl⟩ := hc
    rw [List.cons_append] at hab hbc
    cases b with
    | nil => simp [leText] at hab
    | cons y b =>
      rw [leText] at hab hbc
      by_cases h1 : x < y
      · rw [if_neg (show ¬ y < x from fun h2 => by
          have h1' : x.val < y.val := h1
          have h2' : y.val < x.val := h2
          exact absurd (UInt32.lt_trans h1' h2') (UInt32.lt_irrefl _))] at hbc
        rw [if_neg (show ¬ y = x from fun h2 => by
          have h1' : x.val < y.val := h1
          rw [h2] at h1'
          exact absurd h1' (UInt32.lt_irrefl _))] at hbc
        cases hbc
      · rw [if_neg h1] at hab
        by_cases h2 : x = y
        · subst h2
          rw [if_pos rfl] at hab
          rw [if_neg h1, if_pos rfl] at hbc
          have := ih (List.prefix_append p a') (List.prefix_append p c') hab hbc
          obtain ⟨r, hr⟩ := this
          exact ⟨r, by rw [← hr]; rfl⟩
        · rw [if_neg h2] at hab; cases hab

theorem fields_prefix : ∀ (us : List Str) (_ : ∀ u ∈ us, Word u) (_ : us ≠ []) (r : Str),
    fields ' ' (joinWords us ++ ' ' :: r) = us ++ fields ' ' r := by
  intro us
  induction us with
  | nil => intro _ h; exact absurd rfl h
  | cons u us ih =>
    intro hw _ r
    have hu := hw u List.mem_cons_self
    have hcut : ∀ r', fields ' ' (u ++ ' ' :: r') = u :: fields ' ' r' := by
      intro r'
      unfold fields
      rw [cut_word (fun c hc => (hu.2 c hc).1), List.filter_cons_of_pos]
      have := hu.1
      cases u with
      | nil => exact absurd rfl this
      | cons => rfl
    cases us with
    | nil => exact hcut r
    | cons v us =>
      rw [show joinWords (u :: v :: us) = u ++ ' ' :: joinWords (v :: us) from rfl, List.append_assoc, List.cons_append, hcut,
        ih (fun w hw' => hw w (List.mem_cons_of_mem _ hw')) (by simp) r]
      rfl

theorem join_append : ∀ (us vs : List Str), us ≠ [] → vs ≠ [] → joinWords (us ++ vs) = joinWords us ++ ' ' :: joinWords vs := by
  intro us
  induction us with
  | nil => intro _ h; exact absurd rfl h
  | cons u us ih =>
    intro vs _ hv
    cases us with
    | nil =>
      cases vs with
      | nil => exact absurd rfl hv
      | cons v vs => rfl
    | cons u' us =>
      rw [List.cons_append]
      show joinWords (u :: ((u' :: us) ++ vs)) = _
      rw [List.cons_append]
      show u ++ ' ' :: joinWords (u' :: us ++ vs) = _
      rw [ih vs (by simp) hv, show joinWords (u :: u' :: us) = u ++ ' ' :: joinWords (u' :: us) from rfl]
      simp

theorem join_inj {us vs : List Str} (hu : ∀ u ∈ us, Word u) (hv : ∀ v ∈ vs, Word v) (h : joinWords us = joinWords vs) : us = vs := by
  rw [← fields_join hu, h, fields_join hv]

/-! ### Consecutive groups -/

variable {A K : Type} [DecidableEq K]

/-- The elements with the same key are consecutive. -/
def Contig (k : A → K) (l : List A) : Prop := ∀ a b c, [a, b, c].Sublist l → k a = k c → k b = k a

omit [DecidableEq K] in
theorem Contig.sub {k : A → K} {l m : List A} (h : Contig k l) (hs : m.Sublist l) : Contig k m :=
  fun a b c hm hk => h a b c (hm.trans hs) hk

/-- The groups of consecutive elements with the same key. -/
def runs (k : A → K) : List A → List (K × List A)
  | [] => []
  | a :: l => (k a, a :: l.takeWhile fun b => decide (k b = k a)) :: runs k (l.dropWhile fun b => decide (k b = k a))
termination_by l => l.length
decreasing_by
  have := (List.dropWhile_sublist (fun b => decide (k b = k a)) (l := l)).length_le
  simp only [List.length_cons]; omega

theorem contig_cut {k : A → K} {a : A} : ∀ {l : List A}, Contig k (a :: l) →
    l.takeWhile (fun b => decide (k b = k a)) = l.filter (fun b => decide (k b = k a)) ∧
    l.dropWhile (fun b => decide (k b = k a)) = l.filter (fun b => decide (¬ k b = k a)) := by
  intro l
  induction l with
  | nil => intro _; exact ⟨rfl, rfl⟩
  | cons b l ih =>
    intro h
    by_cases hb : k b = k a
    · obtain ⟨h1, h2⟩ := ih (h.sub (List.Sublist.cons_cons a (List.sublist_cons_self b l)))
      rw [List.takeWhile_cons_of_pos (by simpa using hb), List.dropWhile_cons_of_pos (by simpa using hb), List.filter_cons_of_pos (by simpa using hb),
        List.filter_cons_of_neg (by simpa using hb), h1, h2]
      exact ⟨rfl, rfl⟩
    · rw [List.takeWhile_cons_of_neg (by simpa using hb), List.dropWhile_cons_of_neg (by simpa using hb), List.filter_cons_of_neg (by simpa using hb),
        List.filter_cons_of_pos (by simpa using hb)]
      have hl : ∀ c ∈ l, ¬ k c = k a := by
        intro c hc he
        apply hb
        apply h a b c _ he.symm
        exact List.Sublist.cons_cons a (List.Sublist.cons_cons b (List.singleton_sublist.2 hc))
      constructor
      · rw [List.filter_eq_nil_iff.2]
        intro c hc; simpa using hl c hc
      · congr 1
        rw [List.filter_eq_self.2]
        intro c hc; simpa using hl c hc

/-- The groups of a list whose equal keys are consecutive. -/
theorem runs_contig (k : A → K) : ∀ (l : List A), Contig k l → ∃ ks : List K, ks.Nodup ∧ (∀ s, s ∈ ks ↔ ∃ a ∈ l, k a = s) ∧
    runs k l = ks.map fun s => (s, l.filter fun b => decide (k b = s)) := by
  intro l
  induction hn : l.length using Nat.strongRecOn generalizing l with
  | ind n ih =>
    intro h
    cases l with
    | nil =>
      refine ⟨[], List.nodup_nil, ?_, ?_⟩
      · intro s
        constructor
        · intro hs; cases hs
        · rintro ⟨a, ha, _⟩; cases ha
      · rw [runs]; rfl
    | cons a l =>
      obtain ⟨e1, e2⟩ := contig_cut h
      have hsub : (l.filter fun b => decide (¬ k b = k a)).Sublist (a :: l) := List.filter_sublist.trans (List.sublist_cons_self a l)
      obtain ⟨ks, hnd, hmem, hruns⟩ := ih (l.filter fun b => decide (¬ k b = k a)).length (by
        have := (List.filter_sublist (p := fun b => decide (¬ k b = k a)) (l := l)).length_le
        simp only [List.length_cons] at hn; omega) _ rfl (h.sub hsub)
      have hka : k a ∉ ks := by
        intro hc
        obtain ⟨b, hb, hbk⟩ := (hmem _).1 hc
        have := (List.mem_filter.1 hb).2
        simp [hbk] at this
      refine ⟨k a :: ks, List.nodup_cons.2 ⟨hka, hnd⟩, ?_, ?_⟩
      · intro s
        rw [List.mem_cons, hmem]
        constructor
        · rintro (rfl | ⟨b, hb, hbk⟩)
          · exact ⟨a, List.mem_cons_self, rfl⟩
          · exact ⟨b, List.mem_cons_of_mem _ (List.mem_filter.1 hb).1, hbk⟩
        · rintro ⟨b, hb, hbk⟩
          by_cases he : s = k a
          · exact Or.inl he
          · right
            rcases List.mem_cons.1 hb with rfl | hb
            · exact absurd hbk.symm he
            · exact ⟨b, List.mem_filter.2 ⟨hb, by simpa [hbk] using he⟩, hbk⟩
      · rw [runs, e1, e2, hruns, List.map_cons, List.filter_cons_of_pos (by simp)]
        congr 1
        apply List.map_congr_left
        intro s hs
        have hne : ¬ k a = s := fun e => hka (e ▸ hs)
        congr 1
        rw [List.filter_cons_of_neg (by simpa using hne), List.filter_filter]
        apply List.filter_congr
        intro b _
        by_cases hb : k b = s
        · have : ¬ k b = k a := fun e => hne (e.symm.trans hb)
          simp [hb]
          exact fun e => hne e.symm
        · simp [hb]

/-- A permutation of the images is the image of a permutation. -/
theorem perm_map_lift {B : Type} (f : A → B) {p : List B} {l : List A} (h : p.Perm (l.map f)) : ∃ l' : List A, l'.Perm l ∧ p = l'.map f := by
  generalize hq : l.map f = q at h
  induction h generalizing l with
  | nil =>
    cases l with
    | nil => exact ⟨[], List.Perm.nil, rfl⟩
    | cons => cases hq
  | cons x _ ih =>
    cases l with
    | nil => cases hq
    | cons a l =>
      rw [List.map_cons] at hq
      injection hq with h1 h2
      obtain ⟨l', hl, rfl⟩ := ih h2
      exact ⟨a :: l', hl.cons a, by rw [List.map_cons, h1]⟩
  | swap x y t =>
    cases l with
    | nil => cases hq
    | cons a l =>
      cases l with
      | nil => cases hq
      | cons b l =>
        rw [List.map_cons, List.map_cons] at hq
        injection hq with h1 hq
        injection hq with h2 h3
        exact ⟨b :: a :: l, List.Perm.swap _ _ _, by rw [List.map_cons, List.map_cons, h1, h2, h3]⟩
  | trans _ _ ih1 ih2 =>
    obtain ⟨l1, hl1, e1⟩ := ih2 hq
    obtain ⟨l2, hl2, e2⟩ := ih1 e1.symm
    exact ⟨l2, hl2.trans hl1, e2⟩

end Thot.PhrTools
