import Verif.HatTrie.Erase
/-!
# C298: the tables of the trie are small
-/
namespace Thot.HatTrie

open Thot

variable {V : Type}

mutual
/-- The sizes of the tables below a node. -/
def Node.sizes : Node V → List Nat
  | .hash m => [m.length]
  | .trie _ ch => ch.sizes
/-- The sizes of the tables below the children. -/
def Kids.sizes : Kids V → List Nat
  | .nil => []
  | .cons _ n r => n.sizes ++ r.sizes
end

/-- No table below the node has more than `b` elements. -/
def Node.Small (b : Nat) (n : Node V) : Prop := ∀ s ∈ n.sizes, s ≤ b

theorem Kids.mem_sizes_of_get : ∀ (ch : Kids V) (s : Nat), ch.Sorted → (s ∈ ch.sizes ↔ ∃ c n, ch.get c = some n ∧ s ∈ n.sizes)
  | .nil, s, _ => by simp [Kids.sizes, Kids.get]
  | .cons d m r, s, hs => by
    rw [Kids.sizes, List.mem_append, Kids.mem_sizes_of_get r s hs.2]
    constructor
    · rintro (h | ⟨c, n, h1, h2⟩)
      · exact ⟨d, m, by simp [Kids.get], h⟩
      · have := hs.1 c n h1
        exact ⟨c, n, by simp only [Kids.get]; rw [if_neg (by omega)]; exact h1, h2⟩
    · rintro ⟨c, n, h1, h2⟩
      simp only [Kids.get] at h1
      split at h1
      · simp only [Option.some.injEq] at h1; subst h1; exact Or.inl h2
      · exact Or.inr ⟨c, n, h1, h2⟩

theorem small_trie (b : Nat) (v : Option V) (ch : Kids V) (hs : ch.Sorted) : (Node.trie v ch).Small b ↔ ∀ c n, ch.get c = some n → n.Small b := by
  unfold Node.Small
  rw [Node.sizes]
  constructor
  · intro h c n hc s hss
    exact h s ((Kids.mem_sizes_of_get ch s hs).2 ⟨c, n, hc, hss⟩)
  · intro h s hss
    obtain ⟨c, n, h1, h2⟩ := (Kids.mem_sizes_of_get ch s hs).1 hss
    exact h c n h1 s h2

theorem small_set (b : Nat) (v w : Option V) (ch : Kids V) (hs : ch.Sorted) (c : Nat) (n : Node V) (h : (Node.trie v ch).Small b) (hn : n.Small b) :
    (Node.trie w (ch.set c n)).Small b := by
  rw [small_trie b _ _ (Kids.sorted_set n c ch hs)]
  rw [small_trie b _ _ hs] at h
  intro d x hd
  rw [Kids.get_set] at hd
  split at hd
  · simp only [Option.some.injEq] at hd; rw [← hd]; exact hn
  · exact h d x hd

theorem total_sub (c : Nat) : ∀ (m : List (Key × V)), total (sub c m) + (sub c m).length ≤ total m
  | [] => by simp [sub, total]
  | e :: m => by
    have ih := total_sub c m
    obtain ⟨k, v⟩ := e
    cases k with
    | nil =>
      have : sub c (([], v) :: m) = sub c m := rfl
      rw [this]; simp only [total, List.map_cons, List.sum_cons, List.length_nil] at *; omega
    | cons d k =>
      by_cases hd : d = c
      · have : sub c ((d :: k, v) :: m) = (k, v) :: sub c m := by simp [sub, subE, hd]
        rw [this]; simp only [total, List.map_cons, List.sum_cons, List.length_cons] at *; omega
      · have : sub c ((d :: k, v) :: m) = sub c m := by simp [sub, subE, hd]
        rw [this]; simp only [total, List.map_cons, List.sum_cons, List.length_cons] at *; omega

theorem small_burst (th : Nat) : ∀ (f : Nat) (m : List (Key × V)), AMap.Distinct m → total m ≤ f → (burst th f m).Small th
  | f, m, hd, hf => by
    have hb := built m hd
    cases f with
    | zero =>
      rw [burst, small_trie _ _ _ hb.sorted]
      intro c n hc
      rw [hb.get c] at hc
      split at hc
      · simp at hc
      · rename_i h
        have := total_sub c m
        have : 0 < (sub c m).length := List.length_pos_iff.2 h
        omega
    | succ f =>
      rw [burst, small_trie _ _ _ (Kids.sorted_mapN _ _ hb.sorted)]
      intro c n hc
      rw [Kids.get_mapN, hb.get c] at hc
      split at hc
      · simp at hc
      · rename_i h
        have h1 := total_sub c m
        have h2 : 0 < (sub c m).length := List.length_pos_iff.2 h
        simp only [Option.map_some, Option.some.injEq] at hc
        rw [← hc]
        split
        · exact small_burst th f _ (distinct_sub c m hd) (by omega)
        · intro s hs
          simp only [Node.sizes, List.mem_singleton] at hs
          omega

theorem small_prepare (th : Nat) (n : Node V) (hok : n.Ok) (h : n.Small th) : (prepare th n).Small th ∧ ∀ m, prepare th n = .hash m → m.length < th := by
  cases n with
  | trie v ch => exact ⟨h, fun m hm => by simp [prepare] at hm⟩
  | hash m =>
    have hd : AMap.Distinct m := by
      rcases hok with h | h
      · simp only [Node.hash.injEq] at h; rw [h]; exact AMap.distinct_nil
      · exact h.2
    simp only [prepare]
    split
    · refine ⟨small_burst th _ m hd (Nat.le_refl _), fun s hs => ?_⟩
      unfold burst at hs
      split at hs <;> simp at hs
    · exact ⟨h, fun s hs => by simp only [Node.hash.injEq] at hs; rw [← hs]; omega⟩

theorem small_emplace (th : Nat) (m : List (Key × V)) (k : Key) (v : V) (h : m.length < th) : (Node.hash (emplace m k v).1).Small th := by
  intro s hs
  simp only [Node.sizes, List.mem_singleton] at hs
  subst hs
  simp only [emplace]
  split
  · rename_i hl
    rw [AMap.put_of_none v hl]; simp; omega
  · simp; omega

theorem small_insert (th : Nat) (hth : 0 < th) (v : V) : ∀ (k : Key) (n : Node V), n.Ok → n.Small th → (insert th v k n).1.Small th := by
  intro k
  induction k with
  | nil =>
    intro n hn hs
    obtain ⟨p1, p2⟩ := small_prepare th n hn hs
    have hok := ok_prepare th hth n hn
    rw [insert.eq_def]
    dsimp only
    cases hp : prepare th n with
    | hash m => exact small_emplace th m _ v (p2 m hp)
    | trie w ch =>
      rw [hp] at p1
      cases w with
      | some x => exact p1
      | none => intro s hs; exact p1 s (by simpa [Node.sizes] using hs)
  | cons c k ih =>
    intro n hn hs
    obtain ⟨p1, p2⟩ := small_prepare th n hn hs
    have hok := ok_prepare th hth n hn
    rw [insert.eq_def]
    dsimp only
    cases hp : prepare th n with
    | hash m => exact small_emplace th m _ v (p2 m hp)
    | trie w ch =>
      rw [hp] at p1 hok
      have hg : (Node.trie w ch).Good := by
        rcases hok with h | h
        · simp at h
        · exact h
      dsimp only
      cases hc : ch.get c with
      | none => exact small_set th w w ch hg.2.1 c _ p1 (small_emplace th [] k v hth)
      | some x => exact small_set th w w ch hg.2.1 c _ p1 (ih x (Or.inr (Kids.good_get ch c x hg.2.2 hc)) ((small_trie _ _ _ hg.2.1).1 p1 c x hc))

theorem length_put_of_some (m : List (Key × V)) (k : Key) (v w : V) (h : AMap.lk m k = some w) : (AMap.put m k v).length = m.length := by
  rw [AMap.length_put, h]; simp

theorem small_assign (th : Nat) (v : V) : ∀ (k : Key) (n : Node V), n.Good → find k n ≠ none → n.Small th → (assign v k n).Small th := by
  intro k
  induction k with
  | nil =>
    intro n hg hf hs
    cases n with
    | hash m =>
      obtain ⟨w, hw⟩ := Option.ne_none_iff_exists'.1 hf
      rw [find] at hw
      intro s hss
      apply hs
      simp only [assign, Node.sizes, List.mem_singleton] at hss ⊢
      rw [hss, length_put_of_some m _ v w hw]
    | trie w ch => intro s hss; exact hs s (by simpa [assign, Node.sizes] using hss)
  | cons c k ih =>
    intro n hg hf hs
    cases n with
    | hash m =>
      obtain ⟨w, hw⟩ := Option.ne_none_iff_exists'.1 hf
      rw [find] at hw
      intro s hss
      apply hs
      simp only [assign, Node.sizes, List.mem_singleton] at hss ⊢
      rw [hss, length_put_of_some m _ v w hw]
    | trie w ch =>
      cases hc : ch.get c with
      | none => simp only [assign, hc]; exact hs
      | some x =>
        simp only [find, hc] at hf
        simp only [assign, hc]
        exact small_set th w w ch hg.2.1 c _ hs (ih x (Kids.good_get ch c x hg.2.2 hc) hf ((small_trie _ _ _ hg.2.1).1 hs c x hc))

/-- **C298**: after every history, no table of the trie has more elements than the burst threshold (at least 4): look-ups inspect one table of bounded
size. -/
theorem C298_tables (th : Nat) (d : V) (ops : List (Op V)) : ∀ n, (run th d ops).1.root = some n → ∀ s ∈ n.sizes, s ≤ max 4 th := by
  have hpos : 0 < threshold th := by unfold threshold; omega
  have ins : ∀ (st : State V) (f : Key → Option V), Rep st f → (∀ n, st.root = some n → n.Small (threshold th)) → ∀ k v,
      ∀ n, (st.insert th k v).1.root = some n → n.Small (threshold th) := by
    intro st f hr hs k v n hn
    simp only [State.insert, Option.some.injEq] at hn
    rw [← hn]
    refine small_insert (threshold th) hpos v k _ ?_ ?_
    · cases hroot : st.root with
      | none => exact Or.inl rfl
      | some n => exact Or.inr (hr.good n hroot)
    · cases hroot : st.root with
      | none => intro s hs; simp only [Option.getD_none, Node.sizes, List.length_nil, List.mem_singleton] at hs; omega
      | some n => exact hs n hroot
  have asg : ∀ (st : State V) (f : Key → Option V), Rep st f → (∀ n, st.root = some n → n.Small (threshold th)) → ∀ k v, f k ≠ none →
      ∀ n, st.root.map (assign v k) = some n → n.Small (threshold th) := by
    intro st f hr hs k v hk n hn
    cases hroot : st.root with
    | none => simp [hroot] at hn
    | some x =>
      simp only [hroot, Option.map_some, Option.some.injEq] at hn
      rw [← hn]
      refine small_assign _ v k x (hr.good x hroot) ?_ (hs x hroot)
      rw [← hr.find] at hk
      simpa [State.find, hroot] using hk
  have key : ∀ (ops : List (Op V)) (a : State V × List (Option Bool)) (f : Key → Option V), Rep a.1 f →
      (∀ n, a.1.root = some n → n.Small (threshold th)) →
      ∀ n, (ops.foldl (fun a o => ((step th d a.1 o).1, a.2 ++ [(step th d a.1 o).2])) a).1.root = some n → n.Small (threshold th) := by
    intro ops
    induction ops with
    | nil => intro a f _ hs n hn; exact hs n hn
    | cons o ops ih =>
      intro a f hr hs
      refine ih _ _ (rep_step th d a.1 f hr o).1 ?_
      cases o with
      | insert k v => exact ins a.1 f hr hs k v
      | clear => intro n hn; simp [step, State.new] at hn
      | put k v =>
        intro n hn
        simp only [step, State.put] at hn
        split at hn
        · rename_i w hw
          exact asg a.1 f hr hs k v (by rw [← hr.find, hw]; simp) n hn
        · rename_i hw
          have hr1 := (rep_insert th a.1 f hr k d).1
          refine asg _ _ hr1 (ins a.1 f hr hs k d) k v ?_ n hn
          rw [hr.find] at hw
          simp [ideal, hw]
  intro n hn
  exact key ops (State.new, []) (fun _ => none) ⟨fun k => rfl, fun n hn => by simp [State.new] at hn, rfl⟩ (fun n hn => by simp [State.new] at hn) n hn

example : (match (run 4 0 exOps).1.root with | some n => n.sizes | none => []) = [1, 1, 1, 1, 1] := by decide +kernel

end Thot.HatTrie
