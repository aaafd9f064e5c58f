import Verif.HatTrie.Iter
/-!
# C294–C296: the map of the trie phrase table
-/
namespace Thot.HatTrie

open Thot

variable {V : Type}

/-! ### Histories -/

/-- An operation that changes the map. -/
inductive Op (V : Type) where
  | insert (k : Key) (v : V)
  | put (k : Key) (v : V)
  | clear

/-- An operation on the trie, with the result of `insert`. -/
def step (th : Nat) (d : V) (st : State V) : Op V → State V × Option Bool
  | .insert k v => ((st.insert th k v).1, some (st.insert th k v).2)
  | .put k v => (st.put th d k v, none)
  | .clear => (State.new, none)

/-- The same operation on an ideal map, given by its lookups: `insert` does not change a key that is there. -/
def ideal (f : Key → Option V) : Op V → (Key → Option V) × Option Bool
  | .insert k v => (fun k' => if k' = k ∧ f k = none then some v else f k', some (f k).isNone)
  | .put k v => (fun k' => if k' = k then some v else f k', none)
  | .clear => (fun _ => none, none)

/-- The trie after a history, with the results. -/
def run (th : Nat) (d : V) : List (Op V) → State V × List (Option Bool)
  | ops => ops.foldl (fun a o => ((step th d a.1 o).1, a.2 ++ [(step th d a.1 o).2])) (State.new, [])

/-- The ideal map after a history, with the results. -/
def idealRun : List (Op V) → (Key → Option V) × List (Option Bool)
  | ops => ops.foldl (fun a o => ((ideal a.1 o).1, a.2 ++ [(ideal a.1 o).2])) (fun _ => none, [])

/-- The state is a trie with the lookups `f`. -/
structure Rep (st : State V) (f : Key → Option V) : Prop where
  find : ∀ k, st.find k = f k
  good : ∀ n, st.root = some n → n.Good
  nb : st.nb = ((st.root.map Node.ents).getD []).length

theorem ents_root (st : State V) (hg : ∀ n, st.root = some n → n.Good) : AMap.Distinct ((st.root.map Node.ents).getD []) ∧
    ∀ k, AMap.lk ((st.root.map Node.ents).getD []) k = st.find k := by
  cases hr : st.root with
  | none => exact ⟨AMap.distinct_nil, fun k => by simp [State.find, hr, AMap.lk]⟩
  | some n => exact ⟨Node.distinct_ents n (hg n hr), fun k => by simp [State.find, hr, Node.lk_ents n (hg n hr)]⟩

/-- A map that agrees with another one but at one key. -/
theorem length_upd (m m' : List (Key × V)) (hm : AMap.Distinct m) (hm' : AMap.Distinct m') (k : Key) (v : V)
    (h : ∀ k', AMap.lk m' k' = if k' = k then some v else AMap.lk m k') :
    m'.length = if AMap.lk m k = none then m.length + 1 else m.length := by
  have hp : m'.Perm (AMap.put m k v) := AMap.perm_of_lk hm' (AMap.distinct_put hm k v) (fun k' => by rw [h, AMap.lk_put])
  rw [hp.length_eq, AMap.length_put]
  cases AMap.lk m k <;> simp

theorem rep_upd (st st' : State V) (f : Key → Option V) (h : Rep st f) (k : Key) (v : V) (hf : ∀ k', st'.find k' = if k' = k then some v else f k')
    (hg : ∀ n, st'.root = some n → n.Good) (hn : st'.nb = if f k = none then st.nb + 1 else st.nb) :
    Rep st' (fun k' => if k' = k then some v else f k') := by
  refine ⟨hf, hg, ?_⟩
  obtain ⟨d1, l1⟩ := ents_root st h.good
  obtain ⟨d2, l2⟩ := ents_root st' hg
  rw [hn, length_upd _ _ d1 d2 k v (fun k' => by rw [l2, l1, hf, h.find]), l1, h.find, h.nb]

theorem insert_root (th : Nat) (st : State V) (f : Key → Option V) (h : Rep st f) (k : Key) (v : V) :
    (∀ n, (st.insert th k v).1.root = some n → n.Good) ∧ (st.insert th k v).2 = (f k).isNone ∧
    (∀ k', (st.insert th k v).1.find k' = if f k = none ∧ k' = k then some v else f k') ∧
    (st.insert th k v).1.nb = if f k = none then st.nb + 1 else st.nb := by
  have hok : (st.root.getD (.hash [])).Ok := by
    cases hr : st.root with
    | none => exact Or.inl rfl
    | some n => exact Or.inr (h.good n hr)
  have hfe : ∀ k, HatTrie.find k (st.root.getD (.hash [])) = f k := by
    intro k
    rw [← h.find k]
    cases hr : st.root with
    | none => simp [State.find, hr, HatTrie.find, AMap.lk]
    | some n => simp [State.find, hr]
  obtain ⟨i1, i2, i3⟩ := insert_spec (threshold th) (by unfold threshold; omega) v k _ hok
  simp only [hfe] at i2 i3
  refine ⟨?_, i2, ?_, ?_⟩
  · intro n hn
    simp only [State.insert, Option.some.injEq] at hn
    rw [← hn]; exact i1
  · intro k'; simp only [State.insert, State.find]; exact i3 k'
  · simp only [State.insert, i2]
    cases f k <;> simp

theorem rep_insert (th : Nat) (st : State V) (f : Key → Option V) (h : Rep st f) (k : Key) (v : V) :
    Rep (st.insert th k v).1 (ideal f (.insert k v)).1 ∧ some (st.insert th k v).2 = (ideal f (.insert k v)).2 := by
  obtain ⟨i1, i2, i3, i4⟩ := insert_root th st f h k v
  refine ⟨?_, by simp [ideal, i2]⟩
  cases hk : f k with
  | none =>
    have he : (ideal f (.insert k v)).1 = fun k' => if k' = k then some v else f k' := by funext k'; simp [ideal, hk]
    rw [he]
    exact rep_upd st _ f h k v (fun k' => by rw [i3]; simp [hk]) i1 i4
  | some w =>
    have he : (ideal f (.insert k v)).1 = f := by funext k'; simp [ideal, hk]
    rw [he]
    refine ⟨fun k' => by rw [i3]; simp [hk], i1, ?_⟩
    obtain ⟨d1, l1⟩ := ents_root st h.good
    obtain ⟨d2, l2⟩ := ents_root (st.insert th k v).1 i1
    have hp := AMap.perm_of_lk d1 d2 (fun k' => by rw [l1, l2, i3, h.find]; simp [hk])
    rw [← hp.length_eq, i4, ← h.nb, hk]; simp

theorem rep_assign (st : State V) (f : Key → Option V) (h : Rep st f) (k : Key) (v w : V) (hw : f k = some w) :
    Rep ⟨st.root.map (assign v k), st.nb⟩ (fun k' => if k' = k then some v else f k') := by
  cases hr : st.root with
  | none => have := h.find k; simp [State.find, hr, hw] at this
  | some n =>
    have hfn : ∀ k', find k' n = f k' := fun k' => by rw [← h.find k']; simp [State.find, hr]
    obtain ⟨a1, a2⟩ := assign_spec v k n (h.good n hr) (by rw [hfn, hw]; simp)
    refine rep_upd st _ f h k v (fun k' => ?_) ?_ ?_
    · simp [State.find, a2, hfn]
    · intro x hx; simp only [Option.map_some, Option.some.injEq] at hx; rw [← hx]; exact a1
    · simp [hw]

theorem rep_put (th : Nat) (d : V) (st : State V) (f : Key → Option V) (h : Rep st f) (k : Key) (v : V) :
    Rep (st.put th d k v) (ideal f (.put k v)).1 := by
  cases hk : f k with
  | some w =>
    have : st.put th d k v = ⟨st.root.map (assign v k), st.nb⟩ := by simp [State.put, h.find, hk]
    rw [this]
    exact rep_assign st f h k v w hk
  | none =>
    have : st.put th d k v = ⟨(st.insert th k d).1.root.map (assign v k), (st.insert th k d).1.nb⟩ := by simp [State.put, h.find, hk]
    rw [this]
    have h1 := (rep_insert th st f h k d).1
    have h2 := rep_assign _ _ h1 k v d (by simp [ideal, hk])
    have he : (fun k' => if k' = k then some v else (ideal f (.insert k d)).1 k') = (ideal f (.put k v)).1 := by
      funext k'; simp only [ideal]; split <;> simp_all
    rw [he] at h2
    exact h2

theorem rep_step (th : Nat) (d : V) (st : State V) (f : Key → Option V) (h : Rep st f) (o : Op V) :
    Rep (step th d st o).1 (ideal f o).1 ∧ (step th d st o).2 = (ideal f o).2 := by
  cases o with
  | insert k v => exact rep_insert th st f h k v
  | put k v => exact ⟨rep_put th d st f h k v, rfl⟩
  | clear => exact ⟨⟨fun k => rfl, fun n hn => by simp [step, State.new] at hn, rfl⟩, rfl⟩

theorem rep_run (th : Nat) (d : V) (ops : List (Op V)) : Rep (run th d ops).1 (idealRun ops).1 ∧ (run th d ops).2 = (idealRun ops).2 := by
  unfold run idealRun
  have : ∀ (ops : List (Op V)) (a : State V × List (Option Bool)) (b : (Key → Option V) × List (Option Bool)), Rep a.1 b.1 → a.2 = b.2 →
      Rep (ops.foldl (fun a o => ((step th d a.1 o).1, a.2 ++ [(step th d a.1 o).2])) a).1
        (ops.foldl (fun a o => ((ideal a.1 o).1, a.2 ++ [(ideal a.1 o).2])) b).1 ∧
      (ops.foldl (fun a o => ((step th d a.1 o).1, a.2 ++ [(step th d a.1 o).2])) a).2 =
        (ops.foldl (fun a o => ((ideal a.1 o).1, a.2 ++ [(ideal a.1 o).2])) b).2 := by
    intro ops
    induction ops with
    | nil => intro a b h1 h2; exact ⟨h1, h2⟩
    | cons o ops ih =>
      intro a b h1 h2
      obtain ⟨s1, s2⟩ := rep_step th d a.1 b.1 h1 o
      exact ih _ _ s1 (by simp [h2, s2])
  exact this ops _ _ ⟨fun k => rfl, fun n hn => by simp [State.new] at hn, rfl⟩ rfl

/-- **C294**: after every history of insertions, assignments and `clear`, with every burst threshold and default value, the lookups are those
of an ideal map that went through the same history, and so are the answers of the insertions. -/
theorem C294_map (th : Nat) (d : V) (ops : List (Op V)) :
    (∀ k, (run th d ops).1.find k = (idealRun ops).1 k) ∧ (run th d ops).2 = (idealRun ops).2 :=
  ⟨(rep_run th d ops).1.find, (rep_run th d ops).2⟩

/-- **C294**: the burst threshold has no effect on lookups, answers and sizes. -/
theorem C294_threshold (th th' : Nat) (d d' : V) (ops : List (Op V)) :
    (∀ k, (run th d ops).1.find k = (run th' d' ops).1.find k) ∧ (run th d ops).2 = (run th' d' ops).2 ∧
    (run th d ops).1.nb = (run th' d' ops).1.nb := by
  obtain ⟨r1, a1⟩ := rep_run th d ops
  obtain ⟨r2, a2⟩ := rep_run th' d' ops
  refine ⟨fun k => by rw [r1.find, r2.find], by rw [a1, a2], ?_⟩
  obtain ⟨d1, l1⟩ := ents_root _ r1.good
  obtain ⟨d2, l2⟩ := ents_root _ r2.good
  rw [r1.nb, r2.nb]
  exact (AMap.perm_of_lk d1 d2 (fun k => by rw [l1, l2, r1.find, r2.find])).length_eq

/-! ### Iteration -/

/-- The loop `for(it = first; it != last; ++it)` with at most `fuel` entries: the entries read, or `none` if the loop does not end or uses an
iterator that is not defined. -/
def loop (root : Node V) (nx : Pos → Cur) (last : Cur) : Nat → Cur → Option (List (Key × V))
  | fuel, it => if it = last then some [] else match fuel, it with
    | f + 1, .at p => match entryAt root p with
      | none => none
      | some e => (loop root nx last f (nx p)).map fun l => e :: l
    | _, _ => none

theorem loop_last (root : Node V) (nx : Pos → Cur) (c : Cur) (f : Nat) : loop root nx c f c = some [] := by
  cases f with
  | zero => simp [loop]
  | succ f => cases c <;> simp [loop]

theorem loop_of_vis {root : Node V} {nx : Pos → Cur} {q : List Nat} {a b : Cur} {l : List (Key × V)} (h : Vis root nx q a l b)
    (hb : ∀ p, b = .at p → ¬ q <+: p.path) : ∀ f, l.length ≤ f → loop root nx b f a = some l := by
  induction h with
  | done c => intro f _; exact loop_last _ _ _ _
  | step p e l stop h1 h2 _ ih =>
    intro f hf
    simp only [List.length_cons] at hf
    obtain ⟨f, rfl⟩ : ∃ g, f = g + 1 := ⟨f - 1, by omega⟩
    have hne : Cur.at p ≠ stop := by
      intro he
      exact hb p he.symm h1
    rw [loop, if_neg hne]
    simp only [h2, ih hb f (by omega)]
    rfl

/-- The entries that `begin()` … `end()` reads. -/
def State.loopAll (st : State V) (fuel : Nat) : Option (List (Key × V)) :=
  if st.begin = .fin then some [] else match st.root with
  | none => none
  | some n => loop n (next n) .fin fuel st.begin

/-- The entries that the range of a prefix reads. -/
def State.loopPrefix (st : State V) (f : Key) (fuel : Nat) : Option (List (Key × V)) :=
  if (st.prefixRange f).first = (st.prefixRange f).last then some [] else match st.root with
  | none => none
  | some n => loop n ((st.prefixRange f).next n) (st.prefixRange f).last fuel (st.prefixRange f).first

/-- `l` is the contents of the map with the lookups `f`, each entry once. -/
def Contents (f : Key → Option V) (l : List (Key × V)) : Prop := (l.map Prod.fst).Nodup ∧ ∀ k v, (k, v) ∈ l ↔ f k = some v

theorem contents_ents (st : State V) (f : Key → Option V) (h : Rep st f) : Contents f ((st.root.map Node.ents).getD []) := by
  obtain ⟨d1, l1⟩ := ents_root st h.good
  refine ⟨d1, fun k v => ?_⟩
  rw [← AMap.lk_some_iff d1, l1, h.find]

theorem map_pre_nil (l : List (Key × V)) : l.map (pre []) = l := by
  have : (pre [] : Key × V → Key × V) = id := by funext e; simp [pre]
  rw [this, List.map_id]

/-- **C295**: after every history the loop over the map ends after `size()` entries and has read the entries of the ideal map, each once; no
iterator is undefined. -/
theorem C295_iteration (th : Nat) (d : V) (ops : List (Op V)) :
    ∃ l, (∀ fuel, (run th d ops).1.nb ≤ fuel → (run th d ops).1.loopAll fuel = some l) ∧ l.length = (run th d ops).1.nb ∧
      Contents (idealRun ops).1 l := by
  obtain ⟨r, _⟩ := rep_run th d ops
  refine ⟨_, ?_, r.nb.symm, contents_ents _ _ r⟩
  intro fuel hf
  generalize (run th d ops).1 = st at *
  by_cases h0 : st.nb = 0
  · have hb : st.begin = .fin := by simp [State.begin, h0]
    have hl := r.nb
    rw [h0] at hl
    rw [State.loopAll, if_pos hb, List.eq_nil_of_length_eq_zero hl.symm]
  · cases hr : st.root with
    | none => have := r.nb; simp [hr] at this; exact absurd this h0
    | some n =>
      have hb : st.begin = mostLeft [] n := by simp [State.begin, h0, hr]
      have hv := vis_node n n (r.good n hr) [] rfl
      rw [map_pre_nil] at hv
      simp only [List.reverse_nil, ascend] at hv
      have hn := r.nb
      simp only [hr, Option.map_some, Option.getD_some] at hn ⊢
      have := loop_of_vis hv (fun p hp => by simp at hp) fuel (by omega)
      rw [State.loopAll]
      split
      · rename_i hfin
        rw [hb] at hfin
        rw [hfin, loop_last] at this
        exact this
      · simp only [hr, hb]; exact this

/-- **C296**: after every history the loop over the range of a prefix ends and has read the entries of the ideal map whose key has the prefix,
each once; no iterator is undefined. -/
theorem C296_prefix (th : Nat) (d : V) (ops : List (Op V)) (f : Key) :
    ∃ l, (∀ fuel, (run th d ops).1.nb ≤ fuel → (run th d ops).1.loopPrefix f fuel = some l) ∧ (l.map Prod.fst).Nodup ∧
      ∀ k v, (k, v) ∈ l ↔ (idealRun ops).1 k = some v ∧ f <+: k := by
  obtain ⟨r, _⟩ := rep_run th d ops
  obtain ⟨c1, c2⟩ := contents_ents _ _ r
  refine ⟨(((run th d ops).1.root.map Node.ents).getD []).filter (hasPrefix f), ?_, ?_, ?_⟩
  · intro fuel hf
    generalize (run th d ops).1 = st at *
    cases hr : st.root with
    | none => simp [State.loopPrefix, State.prefixRange, hr]
    | some n =>
      obtain ⟨q, hv, hq⟩ := vis_prefix n f [] n (r.good n hr) rfl
      rw [map_pre_nil] at hv
      have hn := r.nb
      simp only [hr, Option.map_some, Option.getD_some] at hn ⊢
      have hl := List.length_filter_le (hasPrefix f) n.ents
      have := loop_of_vis hv hq fuel (by omega)
      have hpr : st.prefixRange f = prefixRange n [] f n := by simp [State.prefixRange, hr]
      rw [State.loopPrefix, hpr]
      split
      · rename_i hfin
        rw [hfin, loop_last] at this
        exact this
      · simp only [hr]; exact this
  · exact List.Sublist.nodup (List.Sublist.map _ List.filter_sublist) c1
  · intro k v
    rw [List.mem_filter, c2]
    simp [hasPrefix, List.isPrefixOf_iff_prefix]

/-! ### Non-vacuity -/

/-- A history that bursts the root and a child. -/
def exOps : List (Op Nat) :=
  [.insert [97] 1, .insert [97, 98] 2, .insert [97, 99] 3, .put [97, 100] 4, .insert [97, 98] 9, .insert [97, 101] 5, .put [98] 6, .put [97, 98] 7,
    .insert [] 8]

example : (run 4 0 exOps).2 = [some true, some true, some true, none, some false, some true, none, none, some true] := by decide +kernel
example : (run 4 0 exOps).1.loopAll 8 = some [([], 8), ([97], 1), ([97, 98], 7), ([97, 99], 3), ([97, 100], 4), ([97, 101], 5), ([98], 6)] := by
  decide +kernel
example : (run 4 0 exOps).1.loopPrefix [97, 100] 8 = some [([97, 100], 4)] := by decide +kernel
example : (run 4 0 exOps).1.loopPrefix [97] 8 = some [([97], 1), ([97, 98], 7), ([97, 99], 3), ([97, 100], 4), ([97, 101], 5)] := by decide +kernel

end Thot.HatTrie
