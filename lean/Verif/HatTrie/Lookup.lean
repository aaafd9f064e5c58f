import Verif.HatTrie.Model
/-!
# Lookups of the hash array mapped trie
-/
namespace Thot.HatTrie

open Thot

variable {V : Type}

/-! ### Children -/

/-- The codes of the children increase. -/
def Kids.Sorted : Kids V → Prop
  | .nil => True
  | .cons c _ r => (∀ d n, r.get d = some n → c < d) ∧ r.Sorted

mutual
/-- Every table holds something, without repetitions; a trie node has a value or a child. -/
def Node.Good : Node V → Prop
  | .hash m => m ≠ [] ∧ AMap.Distinct m
  | .trie v ch => (v.isSome = true ∨ ch ≠ .nil) ∧ ch.Sorted ∧ ch.Good
/-- `Node.Good` of all the children. -/
def Kids.Good : Kids V → Prop
  | .nil => True
  | .cons _ n r => n.Good ∧ r.Good
end

theorem Kids.get_set (n : Node V) (c : Nat) : ∀ (ch : Kids V) (d : Nat), (ch.set c n).get d = if c = d then some n else ch.get d
  | .nil, d => by simp [Kids.set, Kids.get]
  | .cons e m r, d => by
    have ih := Kids.get_set n c r d
    simp only [Kids.set]
    split
    · simp [Kids.get]
    · split
      · simp only [Kids.get]; grind
      · simp only [Kids.get, ih]; grind

theorem Kids.sorted_set (n : Node V) (c : Nat) : ∀ (ch : Kids V), ch.Sorted → (ch.set c n).Sorted
  | .nil, _ => by simp [Kids.set, Kids.Sorted, Kids.get]
  | .cons e m r, h => by
    have ih := Kids.sorted_set n c r h.2
    simp only [Kids.set]
    split
    · refine ⟨?_, h⟩
      intro d x hd
      simp only [Kids.get] at hd
      split at hd
      · omega
      · have := h.1 d x hd; omega
    · split
      · rename_i h1 h2
        refine ⟨?_, h.2⟩
        subst h2; exact h.1
      · refine ⟨?_, ih⟩
        intro d x hd
        rw [Kids.get_set] at hd
        split at hd
        · omega
        · exact h.1 d x hd

theorem Kids.good_get : ∀ (ch : Kids V) (c : Nat) (n : Node V), ch.Good → ch.get c = some n → n.Good
  | .nil, c, n, _, h => by simp [Kids.get] at h
  | .cons e m r, c, n, hg, h => by
    simp only [Kids.Good] at hg
    simp only [Kids.get] at h
    split at h
    · simp only [Option.some.injEq] at h; rw [← h]; exact hg.1
    · exact Kids.good_get r c n hg.2 h

theorem Kids.good_of_get : ∀ (ch : Kids V), ch.Sorted → (∀ c n, ch.get c = some n → n.Good) → ch.Good
  | .nil, _, _ => by simp [Kids.Good]
  | .cons e m r, hs, h => by
    simp only [Kids.Good]
    refine ⟨h e m (by simp [Kids.get]), Kids.good_of_get r hs.2 ?_⟩
    intro c n hc
    apply h c n
    have := hs.1 c n hc
    simp only [Kids.get, hc]
    rw [if_neg (by omega)]

theorem Kids.good_set (ch : Kids V) (c : Nat) (n : Node V) (hs : ch.Sorted) (hg : ch.Good) (hn : n.Good) : (ch.set c n).Good := by
  refine Kids.good_of_get _ (Kids.sorted_set n c ch hs) ?_
  intro d x hd
  rw [Kids.get_set] at hd
  split at hd
  · simp only [Option.some.injEq] at hd; rw [← hd]; exact hn
  · exact Kids.good_get ch d x hg hd

theorem Kids.ne_nil_of_get {ch : Kids V} {c : Nat} {n : Node V} (h : ch.get c = some n) : ch ≠ .nil := by
  intro he; subst he; simp [Kids.get] at h

theorem Kids.set_ne_nil (ch : Kids V) (c : Nat) (n : Node V) : ch.set c n ≠ .nil :=
  Kids.ne_nil_of_get (c := c) (n := n) (by rw [Kids.get_set]; simp)

theorem Kids.get_mapN (f : Node V → Node V) : ∀ (ch : Kids V) (c : Nat), (ch.mapN f).get c = (ch.get c).map f
  | .nil, c => by simp [Kids.mapN, Kids.get]
  | .cons e m r, c => by
    simp only [Kids.mapN, Kids.get, Kids.get_mapN f r c]
    split <;> simp

theorem Kids.sorted_mapN (f : Node V → Node V) : ∀ (ch : Kids V), ch.Sorted → (ch.mapN f).Sorted
  | .nil, _ => by simp [Kids.mapN, Kids.Sorted]
  | .cons e m r, h => by
    simp only [Kids.mapN, Kids.Sorted]
    refine ⟨?_, Kids.sorted_mapN f r h.2⟩
    intro d x hd
    rw [Kids.get_mapN] at hd
    cases hr : r.get d with
    | none => simp [hr] at hd
    | some y => exact h.1 d y hr

/-! ### Bursts -/

/-- The part of an element of a table that goes to the child `c`. -/
def subE (c : Nat) (e : Key × V) : Option (Key × V) :=
  match e.1 with
  | [] => none
  | d :: k => if d = c then some (k, e.2) else none

/-- The elements of a table that go to the child `c`. -/
def sub (c : Nat) (m : List (Key × V)) : List (Key × V) := m.filterMap (subE c)

theorem sub_append (c : Nat) (m m' : List (Key × V)) : sub c (m ++ m') = sub c m ++ sub c m' := by simp [sub]

theorem mem_sub (c : Nat) (m : List (Key × V)) (k : Key) (v : V) : (k, v) ∈ sub c m ↔ (c :: k, v) ∈ m := by
  simp only [sub, List.mem_filterMap]
  constructor
  · rintro ⟨⟨k', v'⟩, hm, he⟩
    simp only [subE] at he
    split at he
    · simp at he
    · rename_i d l hd
      split at he
      · simp only [Option.some.injEq, Prod.mk.injEq] at he; grind
      · simp at he
  · intro h
    exact ⟨_, h, by simp [subE]⟩

theorem distinct_sub (c : Nat) (m : List (Key × V)) (h : AMap.Distinct m) : AMap.Distinct (sub c m) := by
  induction m with
  | nil => exact AMap.distinct_nil
  | cons e m ih =>
    have h' := h
    simp only [AMap.Distinct, List.map_cons, List.nodup_cons] at h'
    have ih := ih h'.2
    obtain ⟨k, v⟩ := e
    cases k with
    | nil => exact ih
    | cons d k =>
      by_cases hd : d = c
      · subst hd
        have hs : sub d ((d :: k, v) :: m) = (k, v) :: sub d m := by simp [sub, subE]
        rw [hs]
        simp only [AMap.Distinct, List.map_cons, List.nodup_cons]
        refine ⟨?_, ih⟩
        intro hmm
        obtain ⟨⟨k2, v2⟩, hm, he⟩ := List.mem_map.1 hmm
        simp only at he; subst he
        have hm2 := (mem_sub d m _ v2).1 hm
        exact h'.1 (List.mem_map.2 ⟨_, hm2, rfl⟩)
      · have hs : sub c ((d :: k, v) :: m) = sub c m := by simp [sub, subE, hd]
        rw [hs]; exact ih

theorem lk_sub (c : Nat) (m : List (Key × V)) (h : AMap.Distinct m) (k : Key) : AMap.lk (sub c m) k = AMap.lk m (c :: k) := by
  apply Option.ext
  intro v
  rw [AMap.lk_some_iff (distinct_sub c m h), AMap.lk_some_iff h, mem_sub]

/-- What `burstAdd` has built of the elements `p`. -/
structure Built (p : List (Key × V)) (a : Option V × Kids V) : Prop where
  val : a.1 = AMap.lk p []
  get : ∀ c, a.2.get c = if sub c p = [] then none else some (.hash (sub c p))
  sorted : a.2.Sorted

theorem built_nil : Built ([] : List (Key × V)) (none, .nil) := ⟨rfl, fun c => by simp [sub, Kids.get], trivial⟩

theorem built_step (p : List (Key × V)) (a : Option V × Kids V) (e : Key × V) (h : Built p a) (hd : AMap.Distinct (p ++ [e])) :
    Built (p ++ [e]) (burstAdd a e) := by
  obtain ⟨k, v⟩ := e
  have hn : AMap.lk p k = none := by
    rw [AMap.lk_none_iff]
    intro hm
    simp only [AMap.Distinct, List.map_append, List.map_cons, List.map_nil] at hd
    rw [List.nodup_append] at hd
    exact hd.2.2 k hm k (by simp) rfl
  have hp : AMap.Distinct p := by
    simp only [AMap.Distinct, List.map_append] at hd
    exact (List.nodup_append.1 hd).1
  have happ : p ++ [(k, v)] = AMap.put p k v := (AMap.put_of_none v hn).symm
  cases k with
  | nil =>
    refine ⟨?_, ?_, h.sorted⟩
    · rw [happ, AMap.lk_put_self]; rfl
    · intro c
      have : sub c (p ++ [([], v)]) = sub c p := by simp [sub, subE]
      rw [this]; exact h.get c
  | cons c k =>
    have hsub : ∀ d, sub d (p ++ [(c :: k, v)]) = if c = d then sub d p ++ [(k, v)] else sub d p := by
      intro d
      by_cases hcd : c = d
      · simp [sub, subE, hcd]
      · simp [sub, subE, hcd]
    have hls : AMap.lk (sub c p) k = none := by rw [lk_sub c p hp, hn]
    have hset : ∃ s, burstAdd a (c :: k, v) = (a.1, a.2.set c (.hash s)) ∧ s = sub c p ++ [(k, v)] := by
      have hg := h.get c
      by_cases hs : sub c p = []
      · rw [if_pos hs] at hg
        refine ⟨_, by simp only [burstAdd, hg]; rfl, ?_⟩
        rw [hs]; simp [emplace, AMap.lk, AMap.put]
      · rw [if_neg hs] at hg
        refine ⟨(emplace (sub c p) k v).1, by simp only [burstAdd, hg], ?_⟩
        simp only [emplace, hls]
        exact AMap.put_of_none v hls
    obtain ⟨s, hb, hs⟩ := hset
    rw [hb]
    refine ⟨?_, ?_, Kids.sorted_set _ _ _ h.sorted⟩
    · rw [happ, AMap.lk_put_ne _ _ (by simp)]; exact h.val
    · intro d
      simp only
      rw [Kids.get_set, hsub d]
      by_cases hcd : c = d
      · subst hcd
        rw [if_pos rfl, if_pos rfl, hs, if_neg (by simp)]
      · rw [if_neg hcd, if_neg hcd]; exact h.get d

theorem built_foldl (m : List (Key × V)) : ∀ (p : List (Key × V)) (a : Option V × Kids V), Built p a → AMap.Distinct (p ++ m) →
    Built (p ++ m) (m.foldl burstAdd a) := by
  induction m with
  | nil => intro p a h _; simpa using h
  | cons e m ih =>
    intro p a h hd
    have hd' : AMap.Distinct ((p ++ [e]) ++ m) := by simpa using hd
    have h1 : AMap.Distinct (p ++ [e]) := by
      simp only [AMap.Distinct, List.map_append] at hd'
      have := (List.nodup_append.1 hd').1
      simpa only [AMap.Distinct, List.map_append] using this
    have := ih (p ++ [e]) (burstAdd a e) (built_step p a e h h1) hd'
    simpa using this

theorem built (m : List (Key × V)) (hd : AMap.Distinct m) : Built m (m.foldl burstAdd (none, .nil)) := by
  have := built_foldl m [] (none, .nil) built_nil (by simpa using hd)
  simpa using this

theorem find_burst (th : Nat) : ∀ (f : Nat) (m : List (Key × V)), AMap.Distinct m → ∀ k, find k (burst th f m) = AMap.lk m k
  | 0, m, hd, k => by
    have hb := built m hd
    cases k with
    | nil => rw [burst, find, hb.val]
    | cons c k =>
      rw [burst, find, hb.get c, ← lk_sub c m hd]
      by_cases hs : sub c m = []
      · simp [hs, AMap.lk]
      · simp [hs, find]
  | f + 1, m, hd, k => by
    have hb := built m hd
    cases k with
    | nil => rw [burst, find, hb.val]
    | cons c k =>
      rw [burst, find, Kids.get_mapN, hb.get c, ← lk_sub c m hd]
      by_cases hs : sub c m = []
      · simp [hs, AMap.lk]
      · simp only [hs, if_false, Option.map_some]
        split
        · exact find_burst th f _ (distinct_sub c m hd) k
        · rw [find]

theorem good_burst (th : Nat) : ∀ (f : Nat) (m : List (Key × V)), m ≠ [] → AMap.Distinct m → (burst th f m).Good
  | f, m, hne, hd => by
    have hb := built m hd
    have hne' : (m.foldl burstAdd (none, .nil)).1.isSome = true ∨ (∃ c n, (m.foldl burstAdd (none, .nil)).2.get c = some n) := by
      obtain ⟨⟨k, v⟩, m', rfl⟩ := List.exists_cons_of_ne_nil hne
      cases k with
      | nil => left; rw [hb.val]; simp [AMap.lk]
      | cons c k =>
        right
        refine ⟨c, .hash (sub c ((c :: k, v) :: m')), ?_⟩
        rw [hb.get c, if_neg]
        simp [sub, subE]
    have hsub : ∀ c n, (m.foldl burstAdd (none, .nil)).2.get c = some n → n = .hash (sub c m) ∧ sub c m ≠ [] := by
      intro c n hc
      rw [hb.get c] at hc
      split at hc
      · simp at hc
      · rename_i h; simp only [Option.some.injEq] at hc; exact ⟨hc.symm, h⟩
    cases f with
    | zero =>
      rw [burst, Node.Good]
      refine ⟨?_, hb.sorted, Kids.good_of_get _ hb.sorted ?_⟩
      · rcases hne' with h | ⟨c, n, h⟩
        · exact Or.inl h
        · exact Or.inr (Kids.ne_nil_of_get h)
      · intro c n hc
        obtain ⟨rfl, hs⟩ := hsub c n hc
        exact ⟨hs, distinct_sub c m hd⟩
    | succ f =>
      rw [burst, Node.Good]
      refine ⟨?_, Kids.sorted_mapN _ _ hb.sorted, Kids.good_of_get _ (Kids.sorted_mapN _ _ hb.sorted) ?_⟩
      · rcases hne' with h | ⟨c, n, h⟩
        · exact Or.inl h
        · exact Or.inr (Kids.ne_nil_of_get (c := c) (by rw [Kids.get_mapN, h]; rfl))
      · intro c n hc
        rw [Kids.get_mapN] at hc
        cases hg : (m.foldl burstAdd (none, .nil)).2.get c with
        | none => simp [hg] at hc
        | some x =>
          obtain ⟨rfl, hs⟩ := hsub c x hg
          rw [hg] at hc
          simp only [Option.map_some, Option.some.injEq] at hc
          rw [← hc]
          split
          · exact good_burst th f _ hs (distinct_sub c m hd)
          · exact ⟨hs, distinct_sub c m hd⟩

/-! ### Insertion and assignment -/

/-- A node that may be the root during an insertion. -/
def Node.Ok (n : Node V) : Prop := n = .hash [] ∨ n.Good

theorem find_prepare (th : Nat) (n : Node V) (h : n.Ok) (k : Key) : find k (prepare th n) = find k n := by
  cases n with
  | hash m =>
    have hd : AMap.Distinct m := by
      rcases h with h | h
      · simp only [Node.hash.injEq] at h; rw [h]; exact AMap.distinct_nil
      · exact h.2
    simp only [prepare]
    split
    · rw [find_burst th _ m hd, find]
    · rfl
  | trie v ch => rfl

theorem ok_prepare (th : Nat) (hth : 0 < th) (n : Node V) (h : n.Ok) : (prepare th n).Ok := by
  cases n with
  | hash m =>
    simp only [prepare]
    split
    · rename_i hl
      rcases h with h | h
      · simp only [Node.hash.injEq] at h; subst h; simp only [List.length_nil] at hl; omega
      · exact Or.inr (good_burst th _ m h.1 h.2)
    · exact h
  | trie v ch => exact h

theorem lk_emplace (m : List (Key × V)) (k : Key) (v : V) (k' : Key) :
    AMap.lk (emplace m k v).1 k' = if AMap.lk m k = none ∧ k' = k then some v else AMap.lk m k' := by
  simp only [emplace]
  split
  · rename_i h
    rw [AMap.lk_put]; simp [h]
    try grind
  · rename_i x h; simp [h]

theorem good_emplace (m : List (Key × V)) (hd : AMap.Distinct m) (k : Key) (v : V) : (Node.hash (emplace m k v).1).Good := by
  simp only [emplace]
  split
  · rename_i h
    refine ⟨?_, AMap.distinct_put hd k v⟩
    rw [AMap.put_of_none v h]; simp
  · rename_i x h
    refine ⟨?_, hd⟩
    intro he; subst he; simp [AMap.lk] at h

theorem insert_spec (th : Nat) (hth : 0 < th) (v : V) : ∀ (k : Key) (n : Node V), n.Ok →
    (insert th v k n).1.Good ∧ (insert th v k n).2 = (find k n).isNone ∧
    ∀ k', find k' (insert th v k n).1 = if find k n = none ∧ k' = k then some v else find k' n := by
  intro k
  induction k with
  | nil =>
    intro n hn
    have hf := find_prepare th n hn
    have hok := ok_prepare th hth n hn
    rw [insert.eq_def]
    dsimp only
    cases hp : prepare th n with
    | hash m =>
      rw [hp] at hf hok
      try dsimp only
      have hd : AMap.Distinct m := by
        rcases hok with h | h
        · simp only [Node.hash.injEq] at h; rw [h]; exact AMap.distinct_nil
        · exact h.2
      refine ⟨good_emplace m hd _ v, ?_, ?_⟩
      · rw [← hf, find]; simp only [emplace]; split <;> simp [*]
      · intro k'
        rw [← hf k', ← hf []]
        simp only [find]
        exact lk_emplace m [] v k'
    | trie w ch =>
      rw [hp] at hf hok
      try dsimp only
      have hg : (Node.trie w ch).Good := by
        rcases hok with h | h
        · simp at h
        · exact h
      cases w with
      | some x =>
        refine ⟨hg, ?_, ?_⟩
        · rw [← hf, find]; rfl
        · intro k'
          rw [← hf k', ← hf [], find]; simp
      | none =>
        refine ⟨⟨Or.inl rfl, hg.2⟩, ?_, ?_⟩
        · rw [← hf, find]; rfl
        · intro k'
          rw [← hf k', ← hf []]
          cases k' <;> simp [find]
  | cons c k ih =>
    intro n hn
    have hf := find_prepare th n hn
    have hok := ok_prepare th hth n hn
    rw [insert.eq_def]
    dsimp only
    cases hp : prepare th n with
    | hash m =>
      rw [hp] at hf hok
      try dsimp only
      have hd : AMap.Distinct m := by
        rcases hok with h | h
        · simp only [Node.hash.injEq] at h; rw [h]; exact AMap.distinct_nil
        · exact h.2
      refine ⟨good_emplace m hd _ v, ?_, ?_⟩
      · rw [← hf, find]; simp only [emplace]; split <;> simp [*]
      · intro k'
        rw [← hf k', ← hf (c :: k)]
        simp only [find]
        exact lk_emplace m (c :: k) v k'
    | trie w ch =>
      rw [hp] at hf hok
      try dsimp only
      have hg : (Node.trie w ch).Good := by
        rcases hok with h | h
        · simp at h
        · exact h
      try dsimp only
      cases hc : ch.get c with
      | none =>
        refine ⟨⟨Or.inr (Kids.set_ne_nil _ _ _), Kids.sorted_set _ _ _ hg.2.1,
          Kids.good_set ch c _ hg.2.1 hg.2.2 (good_emplace [] AMap.distinct_nil k v)⟩, ?_, ?_⟩
        · rw [← hf, find, hc]; rfl
        · intro k'
          rw [← hf k', ← hf (c :: k)]
          cases k' with
          | nil => simp [find]
          | cons d k' =>
            simp only [find, hc, Kids.get_set]
            by_cases hd : c = d
            · subst hd
              simp only [if_true, find, hc, lk_emplace]
              simp [AMap.lk]
            · simp [hd]
              intro h; exact absurd h.symm hd
      | some x =>
        have hx := Kids.good_get ch c x hg.2.2 hc
        obtain ⟨i1, i2, i3⟩ := ih x (Or.inr hx)
        refine ⟨⟨Or.inr (Kids.set_ne_nil _ _ _), Kids.sorted_set _ _ _ hg.2.1, Kids.good_set ch c _ hg.2.1 hg.2.2 i1⟩, ?_, ?_⟩
        · rw [← hf, find, hc]; exact i2
        · intro k'
          rw [← hf k', ← hf (c :: k)]
          cases k' with
          | nil => simp [find]
          | cons d k' =>
            simp only [find, hc, Kids.get_set]
            by_cases hd : c = d
            · subst hd
              simp only [if_true, i3 k', hc]
              simp
            · simp [hd]
              intro _ h; exact absurd h.symm hd

theorem assign_spec (v : V) : ∀ (k : Key) (n : Node V), n.Good → find k n ≠ none →
    (assign v k n).Good ∧ ∀ k', find k' (assign v k n) = if k' = k then some v else find k' n := by
  intro k
  induction k with
  | nil =>
    intro n hg hf
    cases n with
    | hash m =>
      refine ⟨⟨?_, AMap.distinct_put hg.2 _ v⟩, fun k' => ?_⟩
      · intro he
        have := AMap.lk_put_self m ([] : Key) v
        rw [he] at this; simp [AMap.lk] at this
      · rw [assign, find, find, AMap.lk_put]
    | trie w ch =>
      refine ⟨⟨Or.inl rfl, hg.2⟩, fun k' => ?_⟩
      cases k' <;> simp [assign, find]
  | cons c k ih =>
    intro n hg hf
    cases n with
    | hash m =>
      refine ⟨⟨?_, AMap.distinct_put hg.2 _ v⟩, fun k' => ?_⟩
      · intro he
        have := AMap.lk_put_self m (c :: k) v
        rw [he] at this; simp [AMap.lk] at this
      · rw [assign, find, find, AMap.lk_put]
    | trie w ch =>
      cases hc : ch.get c with
      | none => simp [find, hc] at hf
      | some x =>
        have hx := Kids.good_get ch c x hg.2.2 hc
        simp only [find, hc] at hf
        obtain ⟨i1, i2⟩ := ih x hx hf
        simp only [assign, hc]
        refine ⟨⟨Or.inr (Kids.set_ne_nil _ _ _), Kids.sorted_set _ _ _ hg.2.1, Kids.good_set ch c _ hg.2.1 hg.2.2 i1⟩, ?_⟩
        intro k'
        cases k' with
        | nil => simp [find]
        | cons d k' =>
          simp only [find, Kids.get_set]
          by_cases hd : c = d
          · subst hd; simp [i2 k', hc]
          · simp [hd]
            intro h; exact absurd h.symm hd

end Thot.HatTrie
