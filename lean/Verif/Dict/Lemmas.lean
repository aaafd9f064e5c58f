import Verif.Dict.Model
import Mathlib.Data.List.Induction
/-! Lemmas for C215-C217: nested maps, entries of a line, keys of the database. -/
namespace Thot.Dict
open Thot.Awk (Str fields)
open Thot.Desc (fld nf linesOf)

/-! ### Maps of maps -/

section
variable {V : Type}

/-- All the maps are sorted. -/
def Ok (d : Dict V) : Prop := SMap.Sorted d ∧ ∀ s o, SMap.get d s = some o → SMap.Sorted o

theorem ok_nil : Ok ([] : Dict V) := ⟨SMap.sorted_nil, fun s o h => by cases h⟩

theorem ok_insert {d : Dict V} (h : Ok d) (s t : Phrase) (v : V) : Ok (insertEntry d s t v) := by
  unfold insertEntry
  split
  · refine ⟨SMap.sorted_ins h.1 _ _, ?_⟩
    intro s' o ho
    rw [SMap.get_ins h.1] at ho
    split at ho
    · injection ho with ho; rw [← ho]; exact SMap.sorted_ins SMap.sorted_nil _ _
    · exact h.2 s' o ho
  · rename_i o' ho'
    refine ⟨SMap.sorted_ins h.1 _ _, ?_⟩
    intro s' o ho
    rw [SMap.get_ins h.1] at ho
    split at ho
    · injection ho with ho; rw [← ho]; exact SMap.sorted_ins (h.2 s o' ho') _ _
    · exact h.2 s' o ho

theorem find_insert {d : Dict V} (h : Ok d) (s t : Phrase) (v : V) (s' t' : Phrase) :
    find (insertEntry d s t v) s' t' = if s' = s ∧ t' = t then some v else find d s' t' := by
  unfold insertEntry find
  by_cases hs : s' = s
  · subst hs
    cases hg : SMap.get d s' with
    | none =>
      simp only [SMap.get_ins h.1, if_true, true_and]
      rw [SMap.get_ins SMap.sorted_nil]
      by_cases ht : t' = t
      · rw [if_pos ht, if_pos ht]
      · rw [if_neg ht, if_neg ht]; rfl
    | some o =>
      simp only [SMap.get_ins h.1, if_true, true_and]
      rw [SMap.get_ins (h.2 s' o hg)]
      by_cases ht : t' = t
      · rw [if_pos ht, if_pos ht]
      · rw [if_neg ht, if_neg ht]
  · rw [if_neg (fun c => hs c.1)]
    cases hg : SMap.get d s with
    | none => simp only [SMap.get_ins h.1, if_neg hs]
    | some o => simp only [SMap.get_ins h.1, if_neg hs]

theorem options_sorted {d : Dict V} (h : Ok d) (s : Phrase) : (options d s).Pairwise (· < ·) := by
  unfold options
  split
  · exact List.Pairwise.nil
  · rename_i o ho; exact h.2 s o ho

theorem mem_options (d : Dict V) (s t : Phrase) : t ∈ options d s ↔ (find d s t).isSome := by
  unfold options find
  split
  · simp
  · rw [SMap.get_isSome_iff]

/-- Value of the last element of the list for the pair. -/
def lastOf (s t : Phrase) (es : List (Phrase × Phrase × V)) : Option V :=
  (es.reverse.find? fun e => decide (e.1 = s ∧ e.2.1 = t)).map fun e => e.2.2

theorem lastOf_snoc (s t : Phrase) (es : List (Phrase × Phrase × V)) (e : Phrase × Phrase × V) :
    lastOf s t (es ++ [e]) = if e.1 = s ∧ e.2.1 = t then some e.2.2 else lastOf s t es := by
  unfold lastOf
  rw [List.reverse_append]
  show Option.map _ (List.find? _ (e :: es.reverse)) = _
  rw [List.find?_cons]
  by_cases h : e.1 = s ∧ e.2.1 = t
  · simp only [h, and_self, decide_true, if_true, Option.map_some]
  · rw [if_neg h]
    simp only [h, decide_false]

theorem lastOf_isSome (s t : Phrase) (es : List (Phrase × Phrase × V)) : (lastOf s t es).isSome ↔ ∃ v, (s, t, v) ∈ es := by
  unfold lastOf
  rw [Option.isSome_map, List.find?_isSome]
  constructor
  · rintro ⟨e, he, hd⟩
    have := of_decide_eq_true hd
    refine ⟨e.2.2, ?_⟩
    rw [← this.1, ← this.2]
    exact List.mem_reverse.1 he
  · rintro ⟨v, hv⟩
    exact ⟨_, List.mem_reverse.2 hv, by simp⟩

def build (es : List (Phrase × Phrase × V)) : Dict V := es.foldl (fun d e => insertEntry d e.1 e.2.1 e.2.2) []

theorem build_snoc (es : List (Phrase × Phrase × V)) (e : Phrase × Phrase × V) :
    build (es ++ [e]) = insertEntry (build es) e.1 e.2.1 e.2.2 := by simp [build, List.foldl_append]

theorem build_ok (es : List (Phrase × Phrase × V)) : Ok (build es) := by
  induction es using List.reverseRecOn with
  | nil => exact ok_nil
  | append_singleton es e ih => rw [build_snoc]; exact ok_insert ih _ _ _

theorem find_build (es : List (Phrase × Phrase × V)) (s t : Phrase) : find (build es) s t = lastOf s t es := by
  induction es using List.reverseRecOn with
  | nil => rfl
  | append_singleton es e ih =>
    rw [build_snoc, find_insert (build_ok es), lastOf_snoc, ih]
    by_cases h : s = e.1 ∧ t = e.2.1
    · rw [if_pos h, if_pos ⟨h.1.symm, h.2.symm⟩]
    · rw [if_neg h, if_neg (fun c => h ⟨c.1.symm, c.2.symm⟩)]

end

/-! ### Entries -/

/-- A line that is an entry: `source ||| target ||| score`, the score being one field. -/
def Entry (l : Str) (s t : Phrase) (x : Str) : Prop :=
  fields ' ' l = s ++ bars :: (t ++ [bars, x]) ∧ bars ∉ s ∧ bars ∉ t

theorem takeTo_succ (l : Str) (n i : Nat) : takeTo l (n + 1) i =
    if i ≤ nf l then if fld l i = bars then ([], i) else (fld l i :: (takeTo l n (i + 1)).1, (takeTo l n (i + 1)).2) else ([], i) := rfl

theorem takeTo_spec (l : Str) : ∀ (n i : Nat), nf l < n + i → ∃ (ws : Phrase), takeTo l n (i + 1) = (ws, i + 1 + ws.length) ∧ bars ∉ ws ∧
    (((fields ' ' l).drop i = ws) ∨ ∃ r, (fields ' ' l).drop i = ws ++ bars :: r)
  | 0, i, h => by
    refine ⟨[], rfl, by simp, .inl ?_⟩
    rw [Desc.nf_eq] at h
    exact List.drop_eq_nil_of_le (by omega)
  | n + 1, i, h => by
    rw [takeTo_succ]
    by_cases hi : i + 1 ≤ nf l
    · rw [if_pos hi]
      rw [Desc.nf_eq] at hi
      have hd : (fields ' ' l).drop i = fld l (i + 1) :: (fields ' ' l).drop (i + 1) := by
        rw [Desc.fld_eq, List.drop_eq_getElem_cons (by omega), List.getElem?_eq_getElem (by omega)]
        rfl
      by_cases hb : fld l (i + 1) = bars
      · rw [if_pos hb]
        exact ⟨[], rfl, by simp, .inr ⟨_, by rw [hd, hb]; rfl⟩⟩
      · rw [if_neg hb]
        obtain ⟨ws, h1, h2, h3⟩ := takeTo_spec l n (i + 1) (by omega)
        refine ⟨fld l (i + 1) :: ws, ?_, ?_, ?_⟩
        · rw [h1]
          simp only [List.length_cons, Prod.mk.injEq, true_and]
          omega
        · simp only [List.mem_cons, not_or]
          exact ⟨fun c => hb c.symm, h2⟩
        · rw [hd]
          rcases h3 with h3 | ⟨r, h3⟩
          · exact .inl (by rw [h3])
          · exact .inr ⟨r, by rw [h3]; rfl⟩
    · rw [if_neg hi]
      refine ⟨[], rfl, by simp, .inl ?_⟩
      rw [Desc.nf_eq] at hi
      exact List.drop_eq_nil_of_le (by omega)

theorem bars_split {a b : Phrase} {r r' : List Str} (h : a ++ bars :: r = b ++ bars :: r') (ha : bars ∉ a) (hb : bars ∉ b) : a = b ∧ r = r' := by
  induction a generalizing b with
  | nil =>
    cases b with
    | nil => simpa using h
    | cons x b =>
      simp only [List.nil_append, List.cons_append, List.cons.injEq] at h
      exact absurd (by rw [h.1]; exact List.mem_cons_self) hb
  | cons x a ih =>
    cases b with
    | nil =>
      simp only [List.nil_append, List.cons_append, List.cons.injEq] at h
      exact absurd (by rw [h.1]; exact List.mem_cons_self) ha
    | cons y b =>
      simp only [List.cons_append, List.cons.injEq] at h
      have := ih h.2 (fun c => ha (List.mem_cons_of_mem _ c)) (fun c => hb (List.mem_cons_of_mem _ c))
      exact ⟨by rw [h.1, this.1], this.2⟩

theorem extract_iff (l : Str) (s t : Phrase) (x : Str) : extractEntry l = (s, t, some x) ↔ Entry l s t x := by
  obtain ⟨a, ha1, ha2, ha3⟩ := takeTo_spec l (nf l + 1) 0 (by omega)
  rw [Nat.zero_add] at ha1
  rw [List.drop_zero] at ha3
  have hnf := Desc.nf_eq l
  unfold extractEntry Entry
  simp only [ha1]
  by_cases h1 : 1 + a.length = nf l
  · rw [if_pos h1]
    constructor
    · intro h; simp at h
    · rintro ⟨h, hs, ht⟩
      rcases ha3 with ha3 | ⟨r, ha3⟩
      · rw [ha3] at hnf; omega
      · rw [ha3] at h
        have := bars_split h ha2 hs
        rw [ha3, this.2] at hnf
        simp at hnf
        omega
  · rw [if_neg h1]
    obtain ⟨b, hb1, hb2, hb3⟩ := takeTo_spec l (nf l + 1) (1 + a.length) (by omega)
    simp only [hb1]
    by_cases h2 : 1 + a.length + 1 + b.length + 1 = nf l
    · rw [if_neg (by omega)]
      -- the first loop stopped at a separator
      rcases ha3 with ha3 | ⟨r, ha3⟩
      · rw [ha3] at hnf; omega
      have hr : (fields ' ' l).drop (1 + a.length) = r := by
        rw [ha3, Nat.add_comm, List.drop_length_add_append]
        rfl
      rw [hr] at hb3
      have hrl : nf l = a.length + 1 + r.length := by rw [hnf, ha3]; simp; omega
      rcases hb3 with hb3 | ⟨r', hb3⟩
      · rw [hb3] at hrl; omega
      have hr1 : r'.length = 1 := by rw [hb3] at hrl; simp at hrl; omega
      obtain ⟨y, rfl⟩ := List.length_eq_one_iff.1 hr1
      have hf : fields ' ' l = a ++ bars :: (b ++ [bars, y]) := by rw [ha3, hb3]
      have hy : fld l (nf l) = y := by
        have e : nf l = (a.length + b.length + 2) + 1 := by omega
        rw [e, Desc.fld_eq, hf]
        have : a ++ bars :: (b ++ [bars, y]) = (a ++ bars :: (b ++ [bars])) ++ [y] := by simp
        rw [this, List.getElem?_append_right (by simp; omega)]
        simp
        rw [show a.length + b.length + 2 - (a.length + (b.length + 1 + 1)) = 0 by omega]
        rfl
      rw [hy]
      constructor
      · intro h
        simp only [Prod.mk.injEq, Option.some.injEq] at h
        obtain ⟨rfl, rfl, rfl⟩ := h
        exact ⟨hf, ha2, hb2⟩
      · rintro ⟨h, hs, ht⟩
        rw [hf] at h
        obtain ⟨e1, e2⟩ := bars_split h ha2 hs
        obtain ⟨e3, e4⟩ := bars_split e2 hb2 ht
        simp only [List.cons.injEq, and_true] at e4
        rw [e1, e3, e4]
    · rw [if_pos h2]
      constructor
      · intro h; simp at h
      · rintro ⟨h, hs, ht⟩
        exfalso
        rcases ha3 with ha3 | ⟨r, ha3⟩
        · apply ha2
          rw [← ha3, h]; simp
        · rw [ha3] at h
          obtain ⟨e1, e2⟩ := bars_split h ha2 hs
          have hr : (fields ' ' l).drop (1 + a.length) = r := by
            rw [ha3, Nat.add_comm, List.drop_length_add_append]
            rfl
          rw [hr, e2] at hb3
          rcases hb3 with hb3 | ⟨r', hb3⟩
          · apply hb2; rw [← hb3]; simp
          · obtain ⟨e3, e4⟩ := bars_split hb3 ht hb2
            apply h2
            rw [hnf, ha3, e2, ← e3]
            simp
            omega

theorem extract_none (l : Str) : (extractEntry l).2.2 = none ↔ ∀ s t x, ¬ Entry l s t x := by
  constructor
  · intro h s t x he
    rw [(extract_iff l s t x).2 he] at h
    cases h
  · intro h
    cases hx : (extractEntry l).2.2 with
    | none => rfl
    | some x => exact absurd ((extract_iff l _ _ x).1 (by rw [← hx])) (h (extractEntry l).1 (extractEntry l).2.1 x)

end Thot.Dict
