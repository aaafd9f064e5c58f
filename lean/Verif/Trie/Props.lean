import Verif.Trie.Lemmas
/-!
Properties C21 (a trie is a map on key sequences), C22 (copies), C46 (`clear` resets the trie) and C47 (iteration, size
and height).
-/
set_option linter.unusedSectionVars false
namespace Thot.Trie

variable {K D : Type} [DecidableEq K]

/-! ### Specification -/

/-- Data last inserted for the sequence `ks` in the history `H` of insertions (oldest first). -/
def lastFor (H : List (List K × D)) (ks : List K) : Option D :=
  ((H.filter (fun e => decide (e.1 = ks))).getLast?).map (·.2)

/-- Is `ks` a prefix of an inserted sequence? -/
def IsPrefix (H : List (List K × D)) (ks : List K) : Prop := ∃ e ∈ H, ks <+: e.1

instance (H : List (List K × D)) (ks : List K) : Decidable (IsPrefix H ks) := by unfold IsPrefix; infer_instance

/-- A sequence of `insert(ks,d)` calls. -/
def insertAll (dflt : D) (t : T K D) (H : List (List K × D)) : T K D := H.foldl (fun t e => insert dflt e.2 t e.1) t

/-! ### Any root -/

/-- The root: uninitialised, or well formed. -/
def Ok (t : T K D) : Prop := (∃ d, t = .raw d) ∨ (t ≠ .nil ∧ WF t)

theorem ok_insert (dflt d : D) {t : T K D} (h : Ok t) (ks : List K) : Ok (insert dflt d t ks) := by
  rcases h with ⟨d0, rfl⟩ | ⟨h1, h2⟩
  · cases ks with
    | nil => exact Or.inl ⟨d0, rfl⟩
    | cons k ks => exact Or.inr ⟨insert_ne_nil _ _ (by simp) _, wf_chain _ _ _ _⟩
  · exact Or.inr ⟨insert_ne_nil _ _ h1 _, wf_insert _ _ _ _ h2⟩

theorem ok_insertAll (dflt : D) {t : T K D} (h : Ok t) (H : List (List K × D)) : Ok (insertAll dflt t H) := by
  induction H generalizing t with
  | nil => exact h
  | cons e H ih => exact ih (ok_insert dflt e.2 h e.1)

theorem find_insert (dflt d : D) {t : T K D} (h : Ok t) (ks : List K) (ks' : List K) (hk' : ks' ≠ []) :
    find (insert dflt d t ks) ks' =
      if ks' = ks then some d
      else match find t ks' with
        | some x => some x
        | none => if ks' <+: ks then some (newData dflt t ks') else none := by
  cases ks' with
  | nil => exact absurd rfl hk'
  | cons a r =>
    cases ks with
    | nil =>
      have : insert dflt d t [] = t := by cases t <;> rfl
      rw [this]
      cases find t (a :: r) <;> simp
    | cons k ks =>
      rcases h with ⟨d0, rfl⟩ | ⟨h1, h2⟩
      · rw [insert, find_chain _ _ _ _ (by simp), find_raw _ (by simp)]
        split
        · rfl
        · simp only [← List.isPrefixOf_iff_prefix]
          cases r <;> rfl
      · cases t with
        | nil => exact absurd rfl h1
        | raw d0 => exact absurd h2 (by simp [WF])
        | node k0 d0 c n =>
          rw [find_insert_node dflt d _ k0 d0 c n rfl h2 _ (by simp)]
          simp only [← List.isPrefixOf_iff_prefix]
          rfl

/-- Insertions into a root whose uninitialised node holds data `d0`. -/
theorem insertAll_raw (dflt d0 : D) (H : List (List K × D)) (ks : List K) (hk : ks ≠ []) :
    (∀ d, lastFor H ks = some d → find (insertAll dflt (.raw d0) H) ks = some d) ∧
    (lastFor H ks = none → ¬ IsPrefix H ks → find (insertAll dflt (.raw d0) H) ks = none) ∧
    (lastFor H ks = none → IsPrefix H ks → find (insertAll dflt (.raw d0) H) ks = some dflt ∨
      (ks.length = 1 ∧ find (insertAll dflt (.raw d0) H) ks = some d0)) ∧
    (∀ d, insertAll dflt (.raw d0) H = .raw d → d = d0) := by
  have key : ∀ n, ∀ H : List (List K × D), H.length = n → 
    ((∀ d, lastFor H ks = some d → find (insertAll dflt (.raw d0) H) ks = some d) ∧
    (lastFor H ks = none → ¬ IsPrefix H ks → find (insertAll dflt (.raw d0) H) ks = none) ∧
    (lastFor H ks = none → IsPrefix H ks → find (insertAll dflt (.raw d0) H) ks = some dflt ∨
      (ks.length = 1 ∧ find (insertAll dflt (.raw d0) H) ks = some d0)) ∧
    (∀ d, insertAll dflt (.raw d0) H = .raw d → d = d0)) := by
    intro n
    induction n with
    | zero =>
      intro H hH
      rw [List.eq_nil_of_length_eq_zero hH]
      refine ⟨?_, ?_, ?_, ?_⟩
      · intro d h; simp [lastFor] at h
      · intro _ _; exact find_raw _ hk
      · rintro _ ⟨e, he, _⟩; cases he
      · intro d h; injection h with h; exact h.symm
    | succ n ih =>
      intro H hH
      have hne : H ≠ [] := by intro h; rw [h] at hH; simp at hH
      obtain ⟨H', e, rfl⟩ : ∃ H' e, H = H' ++ [e] :=
        ⟨H.dropLast, H.getLast hne, (List.dropLast_concat_getLast hne).symm⟩
      obtain ⟨i1, i2, i3, i4⟩ := ih H' (by simpa using hH)
      have hok : Ok (insertAll dflt (.raw d0) H') := ok_insertAll dflt (Or.inl ⟨d0, rfl⟩) H'
      have hstep : insertAll dflt (.raw d0) (H' ++ [e]) = insert dflt e.2 (insertAll dflt (.raw d0) H') e.1 := by
        simp [insertAll]
      have hlast : lastFor (H' ++ [e]) ks = if e.1 = ks then some e.2 else lastFor H' ks := by
        unfold lastFor
        rw [List.filter_append]
        by_cases he : e.1 = ks <;> simp [he]
      have hpre : IsPrefix (H' ++ [e]) ks ↔ IsPrefix H' ks ∨ ks <+: e.1 := by
        unfold IsPrefix; simp only [List.mem_append, List.mem_singleton]; grind
      have hnd : newData dflt (insertAll dflt (.raw d0) H') ks = dflt ∨
          (ks.length = 1 ∧ newData dflt (insertAll dflt (.raw d0) H') ks = d0) := by
        cases ht : insertAll dflt (.raw d0) H' with
        | nil => exact Or.inl rfl
        | raw d =>
          rw [i4 d ht]
          match ks, hk with
          | [a], _ => exact Or.inr ⟨rfl, rfl⟩
          | a :: b :: r, _ => exact Or.inl rfl
        | node k d c n => exact Or.inl rfl
      have hf := find_insert dflt e.2 hok e.1 ks hk
      rw [← hstep] at hf
      by_cases he : e.1 = ks
      · rw [if_pos he.symm] at hf
        rw [hlast, if_pos he]
        refine ⟨fun d h => by rw [hf, ← h], (fun h => by cases h), (fun h => by cases h), ?_⟩
        intro d h
        rw [hstep, he] at h
        cases ht : insertAll dflt (.raw d0) H' with
        | nil => rw [ht] at h; cases ks <;> simp [insert] at h
        | raw d' =>
          rw [ht] at h
          match ks, hk with
          | [a], _ => simp [insert, chain] at h
          | a :: b :: r, _ => simp [insert, chain] at h
        | node k d' c n =>
          rw [ht] at h
          match ks, hk with
          | a :: r, _ => rw [insert] at h; split at h <;> split at h <;> simp at h
      · rw [if_neg (fun h => he h.symm)] at hf
        rw [hlast, if_neg he]
        refine ⟨?_, ?_, ?_, ?_⟩
        · intro d h; rw [hf, i1 d h]
        · intro h hp
          rw [hpre] at hp
          rw [hf, i2 h (fun h' => hp (Or.inl h'))]
          simp only
          rw [if_neg (fun h' => hp (Or.inr h'))]
        · intro h hp
          by_cases hp' : IsPrefix H' ks
          · rcases i3 h hp' with g | ⟨g, g'⟩
            · rw [hf, g]; exact Or.inl rfl
            · rw [hf, g']; exact Or.inr ⟨g, rfl⟩
          · rw [hpre] at hp
            rcases hp with hp | hp
            · exact absurd hp hp'
            · rw [hf, i2 h hp']
              simp only
              rw [if_pos hp]
              rcases hnd with g | ⟨g, g'⟩
              · rw [g]; exact Or.inl rfl
              · rw [g']; exact Or.inr ⟨g, rfl⟩
        · intro d h
          rw [hstep] at h
          cases ht : insertAll dflt (.raw d0) H' with
          | nil => rw [ht] at h; cases he' : e.1 <;> rw [he'] at h <;> simp [insert] at h
          | raw d' =>
            rw [ht] at h
            cases he' : e.1 with
            | nil => rw [he'] at h; simp only [insert] at h; injection h with h; rw [← h]; exact i4 d' ht
            | cons a r =>
              rw [he'] at h
              cases r <;> simp [insert, chain] at h
          | node k d' c n =>
            rw [ht] at h
            cases he' : e.1 with
            | nil => rw [he'] at h; simp [insert] at h
            | cons a r => rw [he'] at h; rw [insert] at h; split at h <;> split at h <;> simp at h
  exact key H.length H rfl

/-! ### C21 -/

/-- C21: after any sequence of insertions in a new trie, `find` of a non-empty sequence returns the data last inserted
for it; prefixes of inserted sequences that were not inserted have default data; anything else is not found. -/
theorem C21 (dflt : D) (H : List (List K × D)) (ks : List K) (hk : ks ≠ []) :
    find (insertAll dflt (new dflt) H) ks =
      match lastFor H ks with
      | some d => some d
      | none => if IsPrefix H ks then some dflt else none := by
  obtain ⟨h1, h2, h3, _⟩ := insertAll_raw dflt dflt H ks hk
  cases hl : lastFor H ks with
  | some d => exact h1 d hl
  | none =>
    simp only
    split
    · rename_i hp
      rcases h3 hl hp with h | ⟨_, h⟩ <;> exact h
    · rename_i hp; exact h2 hl hp

/-- C21, frame: an insertion changes what is found only under the inserted sequence and its prefixes that were not
found before. -/
theorem C21_frame (dflt : D) (H : List (List K × D)) (ks : List K) (d : D) (ks' : List K) (hk : ks' ≠ []) :
    (ks' = ks → find (insert dflt d (insertAll dflt (new dflt) H) ks) ks' = some d) ∧
    (ks' ≠ ks → ((find (insertAll dflt (new dflt) H) ks').isSome ∨ ¬ ks' <+: ks) →
      find (insert dflt d (insertAll dflt (new dflt) H) ks) ks' = find (insertAll dflt (new dflt) H) ks') := by
  have hok : Ok (insertAll dflt (new dflt) H) := ok_insertAll dflt (Or.inl ⟨dflt, rfl⟩) H
  rw [find_insert dflt d hok ks ks' hk]
  refine ⟨fun h => by rw [if_pos h], fun h hp => ?_⟩
  rw [if_neg h]
  cases hf : find (insertAll dflt (new dflt) H) ks' with
  | some x => rfl
  | none =>
    rw [hf] at hp
    simp only
    rw [if_neg]
    rcases hp with hp | hp
    · cases hp
    · exact hp

/-- `findV` returns the data of the found prefixes, shortest first. -/
theorem C21_findV (t : T K D) (ks : List K) (i : Nat) (hi : i < ks.length) :
    (findV t ks)[i]? = find t (ks.take (i + 1)) := by
  induction t generalizing ks i with
  | nil => cases ks <;> simp_all [findV, find_nil]
  | raw d =>
    cases ks with
    | nil => simp at hi
    | cons k ks => simp [findV, find_raw]
  | node k0 d c n ihc ihn =>
    cases ks with
    | nil => simp at hi
    | cons k ks =>
      rw [List.take_succ_cons, find_node, findV]
      split
      · cases i with
        | zero => simp
        | succ i =>
          have : i < ks.length := by simpa using hi
          rw [List.getElem?_cons_succ, ihc ks i this, if_neg]
          intro h
          rcases List.take_eq_nil_iff.1 h with h | h
          · omega
          · rw [h] at this; simp at this
      · have := ihn (k :: ks) i hi
        rw [List.take_succ_cons] at this
        exact this

/-- Non-vacuity: sequences inserted twice, sharing prefixes, and a proper prefix. -/
example : find (insertAll 0 (new 0) [([1, 2], 5), ([1, 3], 6), ([1, 2], 7)]) [1, 2] = some 7 ∧
    find (insertAll 0 (new 0) [([1, 2], 5), ([1, 3], 6), ([1, 2], 7)]) [1] = some 0 ∧
    find (insertAll 0 (new 0) [([1, 2], 5), ([1, 3], 6), ([1, 2], 7)]) [2] = none := by decide

/-! ### C22: copies -/

/-- C22 in full (`g` is the value of a key that was never assigned). -/
def C22_full : Prop := ∀ (g : Nat) (H : List (List Nat × Nat)) (ks : List Nat),
  find (copy g 0 (insertAll 0 (new 0) H)) ks = find (insertAll 0 (new 0) H) ks

/-- Copies lose their keys. -/
theorem C22_counterexample : ¬ C22_full := fun h => absurd (h 0 [([1], 5)] [1]) (by decide)

/-- What a copy preserves: the number of nodes and, in iteration order, the data and depth of every node. -/
theorem C22_shape_partial (g : K) (dflt : D) (t : T K D) :
    size (copy g dflt t) = size t ∧
    (collect (size t) (begin (copy g dflt t))).map (fun e => (e.1.length, e.2)) =
      (collect (size t) (begin t)).map (fun e => (e.1.length, e.2)) := by
  have hs : ∀ t : T K D, size (copy g dflt t) = size t := by
    intro t
    induction t with
    | nil => rfl
    | raw => rfl
    | node k d c n ihc ihn => simp only [copy, size, ihc, ihn]
  refine ⟨hs t, ?_⟩
  rw [collect_begin _ _ (by rw [hs]; exact Nat.le_refl _), collect_begin _ _ (Nat.le_refl _)]
  have : ∀ (t : T K D) (p q : List K), p.length = q.length →
      (post p (copy g dflt t)).map (fun e => (e.1.length, e.2)) = (post q t).map (fun e => (e.1.length, e.2)) := by
    intro t
    induction t with
    | nil => intro p q _; rfl
    | raw => intro p q _; rfl
    | node k d c n ihc ihn =>
      intro p q hpq
      simp only [copy, post, List.map_append, List.map_cons]
      rw [ihc (g :: p) (k :: q) (by simp [hpq]), ihn p q hpq]
      simp [hpq]
  exact this t [] [] rfl

/-! ### C46: clear -/

/-- C46 in full: after `clear()` a trie behaves as a new one. -/
def C46_full : Prop := ∀ (H H' : List (List Nat × Nat)) (ks : List Nat), ks ≠ [] →
  find (insertAll 0 (clear (insertAll 0 (new 0) H)) H') ks = find (insertAll 0 (new 0) H') ks

/-- The root keeps its old data, which shows up under a one-key prefix. -/
theorem C46_counterexample : ¬ C46_full := fun h => absurd (h [([1], 5)] [([2, 3], 7)] [2] (by decide)) (by decide)

/-- After `clear()`, sequences are found exactly as in a new trie, and with the same data except possibly for one-key
prefixes that were not inserted themselves. -/
theorem C46_partial (dflt : D) (H H' : List (List K × D)) (ks : List K) (hk : ks ≠ []) :
    (find (insertAll dflt (clear (insertAll dflt (new dflt) H)) H') ks).isSome =
      (find (insertAll dflt (new dflt) H') ks).isSome ∧
    ((ks.length ≠ 1 ∨ (lastFor H' ks).isSome) →
      find (insertAll dflt (clear (insertAll dflt (new dflt) H)) H') ks = find (insertAll dflt (new dflt) H') ks) := by
  obtain ⟨d0, hd0⟩ : ∃ d0, clear (insertAll dflt (new dflt) H : T K D) = .raw d0 := by
    rcases ok_insertAll dflt (t := (new dflt : T K D)) (Or.inl ⟨dflt, rfl⟩) H with ⟨d, h⟩ | ⟨h, _⟩
    · exact ⟨d, by rw [h]; rfl⟩
    · cases ht : (insertAll dflt (new dflt) H : T K D) with
      | nil => exact absurd ht h
      | raw d => exact ⟨d, rfl⟩
      | node k d c n => exact ⟨d, rfl⟩
  rw [hd0, C21 dflt H' ks hk]
  obtain ⟨h1, h2, h3, _⟩ := insertAll_raw dflt d0 H' ks hk
  cases hl : lastFor H' ks with
  | some d => rw [h1 d hl]; exact ⟨rfl, fun _ => rfl⟩
  | none =>
    simp only
    by_cases hp : IsPrefix H' ks
    · rw [if_pos hp]
      rcases h3 hl hp with h | ⟨h, h'⟩
      · rw [h]; exact ⟨rfl, fun _ => rfl⟩
      · rw [h']; refine ⟨rfl, ?_⟩
        rintro (h4 | h4)
        · exact absurd h h4
        · cases h4
    · rw [if_neg hp, h2 hl hp]; exact ⟨rfl, fun _ => rfl⟩

/-! ### C47: iteration, size, height -/

theorem wf_of_ok {t : T K D} (h : Ok t) : (∃ d, t = .raw d) ∨ WF t := h.imp id And.right

/-- C47: iterating from `begin()` to `end()` visits every sequence that `find` finds exactly once, with its data, in
`size()` steps. -/
theorem C47 (dflt : D) (H : List (List K × D)) (fuel : Nat)
    (hf : size (insertAll dflt (new dflt) H : T K D) ≤ fuel) :
    let t : T K D := insertAll dflt (new dflt) H
    let l := collect fuel (begin t)
    l.length = size t ∧ (l.map Prod.fst).Nodup ∧
      ∀ ks d, (ks, d) ∈ l ↔ ks ≠ [] ∧ find t ks = some d := by
  simp only
  rw [collect_begin _ _ hf]
  refine ⟨length_post _ _, ?_, ?_⟩
  · rcases wf_of_ok (ok_insertAll dflt (t := (new dflt : T K D)) (Or.inl ⟨dflt, rfl⟩) H) with ⟨d, h⟩ | h
    · rw [h]; simp [post]
    · exact nodup_post _ _ h
  · intro ks d
    rcases wf_of_ok (ok_insertAll dflt (t := (new dflt : T K D)) (Or.inl ⟨dflt, rfl⟩) H) with ⟨d, h⟩ | h
    · rw [h]
      simp only [post, List.not_mem_nil, false_iff]
      rintro ⟨hk, hh⟩
      rw [find_raw _ hk] at hh; cases hh
    · rw [mem_post _ _ h]
      constructor
      · rintro ⟨ks', a, b, e⟩
        simp at b; subst b; exact ⟨a, e⟩
      · rintro ⟨a, b⟩; exact ⟨ks, a, by simp, b⟩

theorem heightAux_spec (i r : Nat) (t : T K D) (pre : List K) (hi : pre.length + 1 = i) (hw : WF t) :
    r ≤ heightAux i t r ∧ (∀ e ∈ post pre t, e.1.length ≤ heightAux i t r) ∧
      (heightAux i t r = r ∨ ∃ e ∈ post pre t, e.1.length = heightAux i t r) := by
  induction t generalizing i r pre with
  | nil => exact ⟨Nat.le_refl _, by simp [post], Or.inl rfl⟩
  | raw => exact absurd hw (by simp [WF])
  | node k d c n ihc ihn =>
    obtain ⟨h1, h2, _⟩ := hw
    obtain ⟨a1, a2, a3⟩ := ihc (i + 1) (max i r) (k :: pre) (by simp; omega) h1
    obtain ⟨b1, b2, b3⟩ := ihn i (heightAux (i + 1) c (max i r)) pre hi h2
    rw [heightAux]
    refine ⟨by clear a3 b3; omega, ?_, ?_⟩
    · clear a3 b3
      intro e he
      rw [post] at he
      rcases List.mem_append.1 he with he | he
      · have := a2 e he; omega
      · rcases List.mem_cons.1 he with rfl | he
        · simp only [List.length_reverse, List.length_cons]; omega
        · exact b2 e he
    · rcases b3 with h | ⟨e, he, h⟩
      · rw [h]
        rcases a3 with g | ⟨e, he, g⟩
        · rw [g]
          by_cases hir : r < i
          · right
            refine ⟨((k :: pre).reverse, d), by rw [post]; simp, ?_⟩
            simp only [List.length_reverse, List.length_cons]; omega
          · left; omega
        · exact Or.inr ⟨e, by rw [post]; exact List.mem_append.2 (Or.inl he), g⟩
      · exact Or.inr ⟨e, by rw [post]; exact List.mem_append.2 (Or.inr (List.mem_cons_of_mem _ he)), h⟩

/-- C47: `height()` is the length of the longest stored sequence (0 when there is none). -/
theorem C47_height (dflt : D) (H : List (List K × D)) :
    let t : T K D := insertAll dflt (new dflt) H
    (∀ ks d, ks ≠ [] → find t ks = some d → ks.length ≤ height t) ∧
    (height t = 0 ∨ ∃ ks d, find t ks = some d ∧ ks.length = height t) := by
  simp only
  rcases wf_of_ok (ok_insertAll dflt (t := (new dflt : T K D)) (Or.inl ⟨dflt, rfl⟩) H) with ⟨d, h⟩ | h
  · rw [h]
    refine ⟨?_, Or.inl rfl⟩
    intro ks d' hk hf; rw [find_raw _ hk] at hf; cases hf
  · generalize insertAll dflt (new dflt) H = t at h
    cases t with
    | nil => exact ⟨(fun ks d _ hf => by rw [find_nil] at hf; cases hf), Or.inl rfl⟩
    | raw d => exact absurd h (by simp [WF])
    | node k d c n =>
      obtain ⟨a1, a2, a3⟩ := heightAux_spec 1 1 (.node k d c n) [] rfl h
      refine ⟨?_, Or.inr ?_⟩
      · intro ks d' hk hf
        exact a2 (ks, d') ((mem_post [] _ h ks d').2 ⟨ks, hk, by simp, hf⟩)
      · rcases a3 with g | ⟨⟨ks, d'⟩, he, g⟩
        · refine ⟨[k], d, by rw [find_node]; simp, ?_⟩
          exact g.symm
        · obtain ⟨ks', _, b, e⟩ := (mem_post [] _ h ks d').1 he
          simp at b; subst b
          exact ⟨ks, d', e, g⟩

example : height (insertAll 0 (new 0) [([1, 2], 5), ([1, 3], 6), ([4], 7)]) = 2 ∧
    collect 4 (begin (insertAll 0 (new 0) [([1, 2], 5), ([1, 3], 6), ([4], 7)])) =
      [([1, 2], 5), ([1, 3], 6), ([1], 0), ([4], 7)] := by decide

end Thot.Trie
