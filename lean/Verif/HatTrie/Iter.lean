import Verif.HatTrie.Lookup
/-!
# Iterators of the hash array mapped trie
-/
namespace Thot.HatTrie

open Thot

variable {V : Type}

/-! ### Entries -/

/-- The entry of the value of a trie node. -/
def vents (v : Option V) : List (Key × V) := match v with | none => [] | some x => [([], x)]

mutual
/-- The entries below a node, in the order of the iterators. -/
def Node.ents : Node V → List (Key × V)
  | .hash m => m
  | .trie v ch => vents v ++ ch.ents
/-- The entries below the children. -/
def Kids.ents : Kids V → List (Key × V)
  | .nil => []
  | .cons c n r => n.ents.map (fun e => (c :: e.1, e.2)) ++ r.ents
end

theorem Kids.ents_key : ∀ (ch : Kids V) (e : Key × V), e ∈ ch.ents → ∃ c k n, e.1 = c :: k ∧ ch.get c = some n
  | .nil, e, h => by simp [Kids.ents] at h
  | .cons c n r, e, h => by
    simp only [Kids.ents, List.mem_append, List.mem_map] at h
    rcases h with ⟨x, hx, rfl⟩ | h
    · exact ⟨c, x.1, n, rfl, by simp [Kids.get]⟩
    · obtain ⟨d, k, m, h1, h2⟩ := Kids.ents_key r e h
      by_cases hc : c = d
      · exact ⟨d, k, n, h1, by simp [Kids.get, hc]⟩
      · exact ⟨d, k, m, h1, by simp [Kids.get, hc, h2]⟩

mutual
theorem Node.mem_ents : ∀ (n : Node V), n.Good → ∀ k v, (k, v) ∈ n.ents ↔ find k n = some v
  | .hash m, h, k, v => by
    rw [Node.ents, find, AMap.lk_some_iff h.2]
  | .trie w ch, h, k, v => by
    rw [Node.ents, List.mem_append]
    cases k with
    | nil =>
      rw [find]
      have hno : ([], v) ∉ ch.ents := by
        intro hm
        obtain ⟨c, k, n, he, _⟩ := Kids.ents_key ch _ hm
        simp at he
      cases w with
      | none => simp [hno, vents]
      | some x => simp [hno, vents]; exact eq_comm
    | cons c k =>
      rw [find, Kids.mem_ents ch h.2.1 h.2.2 c k v]
      have : (c :: k, v) ∉ vents w := by cases w <;> simp [vents]
      simp only [this, false_or]
      cases ch.get c with
      | none => simp
      | some n => simp
theorem Kids.mem_ents : ∀ (ch : Kids V), ch.Sorted → ch.Good → ∀ c k v,
    (c :: k, v) ∈ ch.ents ↔ ∃ n, ch.get c = some n ∧ find k n = some v
  | .nil, _, _, c, k, v => by simp [Kids.ents, Kids.get]
  | .cons d m r, hs, hg, c, k, v => by
    simp only [Kids.Good] at hg
    have h1 := Node.mem_ents m hg.1
    have h2 := Kids.mem_ents r hs.2 hg.2 c k v
    rw [Kids.ents, List.mem_append, h2]
    simp only [Kids.get, List.mem_map]
    by_cases hd : d = c
    · subst hd
      have hno : r.get d = none := by
        cases hr : r.get d with
        | none => rfl
        | some x => have := hs.1 d x hr; omega
      simp only [hno, if_true]
      constructor
      · rintro (⟨⟨k', v'⟩, hm, he⟩ | ⟨n, hn, _⟩)
        · simp only [Prod.mk.injEq, List.cons.injEq, true_and] at he
          obtain ⟨rfl, rfl⟩ := he
          exact ⟨m, rfl, (h1 _ _).1 hm⟩
        · simp at hn
      · rintro ⟨n, hn, hf⟩
        simp only [Option.some.injEq] at hn
        subst hn
        exact Or.inl ⟨(k, v), (h1 _ _).2 hf, rfl⟩
    · simp only [if_neg hd]
      constructor
      · rintro (⟨e, _, he⟩ | h)
        · simp only [Prod.mk.injEq, List.cons.injEq] at he; exact absurd he.1.1 hd
        · exact h
      · intro h; exact Or.inr h
end

mutual
theorem Node.distinct_ents : ∀ (n : Node V), n.Good → AMap.Distinct n.ents
  | .hash m, h => by rw [Node.ents]; exact h.2
  | .trie w ch, h => by
    have ih := Kids.distinct_ents ch h.2.1 h.2.2
    rw [Node.ents]
    cases w with
    | none => simpa [vents] using ih
    | some x =>
      simp only [vents, List.singleton_append, AMap.Distinct, List.map_cons, List.nodup_cons]
      refine ⟨?_, ih⟩
      intro hm
      obtain ⟨e, he, hk⟩ := List.mem_map.1 hm
      obtain ⟨c, k, n, h1, _⟩ := Kids.ents_key ch e he
      rw [h1] at hk; simp at hk
theorem Kids.distinct_ents : ∀ (ch : Kids V), ch.Sorted → ch.Good → AMap.Distinct ch.ents
  | .nil, _, _ => by rw [Kids.ents]; exact AMap.distinct_nil
  | .cons d m r, hs, hg => by
    simp only [Kids.Good] at hg
    have h1 := Node.distinct_ents m hg.1
    have h2 := Kids.distinct_ents r hs.2 hg.2
    rw [Kids.ents]
    simp only [AMap.Distinct, List.map_append, List.map_map] at *
    rw [List.nodup_append]
    refine ⟨?_, h2, ?_⟩
    · have : (Prod.fst ∘ fun (e : Key × V) => (d :: e.1, e.2)) = (fun k => d :: k) ∘ Prod.fst := rfl
      rw [this, ← List.map_map]
      exact List.Pairwise.map (R := (· ≠ ·)) (fun k => d :: k) (by intro a b hab; simpa using hab) h1
    · intro a ha b hb hab
      obtain ⟨e, _, rfl⟩ := List.mem_map.1 ha
      obtain ⟨e', he', rfl⟩ := List.mem_map.1 hb
      obtain ⟨c, k, n, hk, hn⟩ := Kids.ents_key r e' he'
      rw [hk] at hab
      simp only [Function.comp, List.cons.injEq] at hab
      have := hs.1 c n hn
      omega
end

theorem Node.lk_ents (n : Node V) (h : n.Good) (k : Key) : AMap.lk n.ents k = find k n := by
  apply Option.ext
  intro v
  rw [AMap.lk_some_iff (Node.distinct_ents n h), Node.mem_ents n h]

/-! ### Tails of lists of children -/

/-- `s` is a tail of a list of children. -/
inductive Kids.Tail (s : Kids V) : Kids V → Prop
  | refl : Tail s s
  | step (c : Nat) (n : Node V) (r : Kids V) : Tail s r → Tail s (.cons c n r)

theorem Kids.tail_get {c : Nat} {n : Node V} {r : Kids V} {ch : Kids V} (h : Kids.Tail (.cons c n r) ch) (hs : ch.Sorted) :
    ch.get c = some n ∧ ch.nextAfter c = r.first := by
  induction h with
  | refl =>
    refine ⟨by simp [Kids.get], ?_⟩
    simp only [Kids.nextAfter, Nat.lt_irrefl, if_false]
    cases r with
    | nil => rfl
    | cons d x r =>
      have := hs.1 d x (by simp [Kids.get])
      simp [Kids.nextAfter, Kids.first, this]
  | step d m r' _ ih =>
    obtain ⟨i1, i2⟩ := ih hs.2
    have := hs.1 c n i1
    refine ⟨?_, ?_⟩
    · simp only [Kids.get]; rw [if_neg (by omega)]; exact i1
    · simp only [Kids.nextAfter]; rw [if_neg (by omega)]; exact i2

theorem Kids.tail_tail {c : Nat} {n : Node V} {r : Kids V} {ch : Kids V} (h : Kids.Tail (.cons c n r) ch) : Kids.Tail r ch := by
  induction h with
  | refl => exact .step _ _ _ .refl
  | step d m r' _ ih => exact .step _ _ _ ih

/-! ### Paths -/

theorem nodeAt_snoc (c : Nat) : ∀ (p : List Nat) (n : Node V),
    nodeAt (p ++ [c]) n = match nodeAt p n with | some (.trie _ ch) => ch.get c | _ => none
  | [], .hash m => by simp [nodeAt]
  | [], .trie v ch => by
    simp only [List.nil_append, nodeAt]
    cases ch.get c <;> simp [nodeAt]
  | d :: p, .hash m => by simp [nodeAt]
  | d :: p, .trie v ch => by
    simp only [List.cons_append, nodeAt]
    cases h : ch.get d with
    | none => rfl
    | some x => exact nodeAt_snoc c p x

mutual
theorem mostLeft_path : ∀ (q : List Nat) (n : Node V) (p : Pos), mostLeft q n = .at p → q <+: p.path
  | q, .hash m, p, h => by
    rw [mostLeft, atHash] at h
    split at h
    · simp at h
    · simp only [Cur.at.injEq] at h; subst h; exact List.prefix_refl _
  | q, .trie (some v) ch, p, h => by
    rw [mostLeft] at h
    simp only [Cur.at.injEq] at h; subst h; exact List.prefix_refl _
  | q, .trie none ch, p, h => by
    rw [mostLeft] at h
    exact left_path q ch p h
theorem left_path : ∀ (q : List Nat) (ch : Kids V) (p : Pos), Kids.left q ch = .at p → q <+: p.path
  | q, .nil, p, h => by rw [Kids.left] at h; simp at h
  | q, .cons c n r, p, h => by
    rw [Kids.left] at h
    exact List.IsPrefix.trans (List.prefix_append q [c]) (mostLeft_path (q ++ [c]) n p h)
end

theorem Kids.nextAfter_gt : ∀ (ch : Kids V) (c d : Nat) (n : Node V), ch.nextAfter c = some (d, n) → c < d
  | .nil, c, d, n, h => by simp [Kids.nextAfter] at h
  | .cons e m r, c, d, n, h => by
    simp only [Kids.nextAfter] at h
    split at h
    · simp only [Option.some.injEq, Prod.mk.injEq] at h; omega
    · exact Kids.nextAfter_gt r c d n h

theorem ascend_path (root : Node V) : ∀ (rp : List Nat) (p : Pos), ascend root rp = .at p → ¬ rp.reverse <+: p.path
  | [], p, h => by simp [ascend] at h
  | c :: up, p, h => by
    rw [ascend] at h
    split at h
    · rename_i v ch hch
      split at h
      · rename_i d n hd
        have h1 := mostLeft_path _ _ _ h
        have h2 := Kids.nextAfter_gt ch c d n hd
        intro h3
        rw [List.reverse_cons] at h3
        obtain ⟨t1, e1⟩ := h1
        obtain ⟨t2, e2⟩ := h3
        rw [← e1, List.append_assoc, List.append_assoc, List.append_cancel_left_eq] at e2
        simp only [List.singleton_append, List.cons.injEq] at e2
        omega
      · have h1 := ascend_path root up p h
        intro h3
        apply h1
        rw [List.reverse_cons] at h3
        exact List.IsPrefix.trans (List.prefix_append _ _) h3
    · simp at h

/-! ### Walks -/

/-- An iterator visits the entries `l` from `start` until it reaches `stop`; its positions are below `q`. -/
inductive Vis (root : Node V) (nx : Pos → Cur) (q : List Nat) : Cur → List (Key × V) → Cur → Prop
  | done (c : Cur) : Vis root nx q c [] c
  | step (p : Pos) (e : Key × V) (l : List (Key × V)) (stop : Cur) : q <+: p.path → entryAt root p = some e →
      Vis root nx q (nx p) l stop → Vis root nx q (.at p) (e :: l) stop

theorem Vis.append {root : Node V} {nx : Pos → Cur} {q : List Nat} {a b c : Cur} {l l' : List (Key × V)} (h : Vis root nx q a l b)
    (h' : Vis root nx q b l' c) : Vis root nx q a (l ++ l') c := by
  induction h with
  | done _ => exact h'
  | step p e l stop h1 h2 _ ih => exact .step p e _ _ h1 h2 (ih h')

theorem Vis.mono {root : Node V} {nx : Pos → Cur} {q q' : List Nat} {a b : Cur} {l : List (Key × V)} (h : Vis root nx q a l b) (hq : q' <+: q) :
    Vis root nx q' a l b := by
  induction h with
  | done _ => exact .done _
  | step p e l stop h1 h2 _ ih => exact .step p e _ _ (hq.trans h1) h2 ih

/-- The entry with the path before its key. -/
def pre (q : List Nat) (e : Key × V) : Key × V := (q ++ e.1, e.2)

theorem vis_hash (root : Node V) (path : List Nat) (m : List (Key × V)) (h : nodeAt path root = some (.hash m)) : ∀ (g i : Nat), i + g = m.length →
    Vis root (next root) path (if i < m.length then .at ⟨path, some i⟩ else ascend root path.reverse) ((m.drop i).map (pre path))
      (ascend root path.reverse)
  | 0, i, hi => by
    rw [if_neg (by omega), List.drop_eq_nil_of_le (by omega)]
    exact .done _
  | g + 1, i, hi => by
    have hlt : i < m.length := by omega
    rw [if_pos hlt, List.drop_eq_getElem_cons hlt, List.map_cons]
    refine .step _ _ _ _ (List.prefix_refl _) ?_ ?_
    · simp [entryAt, h, hlt, pre]
    · have ih := vis_hash root path m h g (i + 1) (by omega)
      simp only [next, h]
      exact ih

/-- Where the visit of the children `s` begins. -/
def startK (root : Node V) (path : List Nat) (s : Kids V) : Cur :=
  match s.first with
  | some (d, n) => mostLeft (path ++ [d]) n
  | none => ascend root path.reverse

mutual
theorem vis_node (root : Node V) : ∀ (n : Node V), n.Good → ∀ path, nodeAt path root = some n →
    Vis root (next root) path (mostLeft path n) (n.ents.map (pre path)) (ascend root path.reverse)
  | .hash m, hg, path, hp => by
    have := vis_hash root path m hp m.length 0 (by omega)
    have hm : m ≠ [] := hg.1
    rw [mostLeft, atHash, Node.ents, if_neg (by simpa using hm)]
    rw [if_pos (by cases m <;> simp_all)] at this
    simpa using this
  | .trie v ch, hg, path, hp => by
    have ih := vis_kids root ch hg.2.1 hg.2.2 path v ch hp hg.2.1 .refl
    rw [Node.ents]
    cases v with
    | some x =>
      rw [mostLeft]
      refine .step _ _ _ _ (List.prefix_refl _) ?_ ?_
      · simp [entryAt, hp, pre]
      · simp only [next, hp]
        exact ih
    | none =>
      cases ch with
      | nil => have := hg.1; simp at this
      | cons c n r =>
        rw [mostLeft]
        simp only [Kids.left]
        exact ih
theorem vis_kids (root : Node V) : ∀ (s : Kids V), s.Sorted → s.Good → ∀ path v ch, nodeAt path root = some (.trie v ch) → ch.Sorted →
    Kids.Tail s ch → Vis root (next root) path (startK root path s) (s.ents.map (pre path)) (ascend root path.reverse)
  | .nil, _, _, path, v, ch, hp, hs, ht => by
    simp only [startK, Kids.first, Kids.ents, List.map_nil]
    exact .done _
  | .cons c n r, hss, hg, path, v, ch, hp, hs, ht => by
    simp only [Kids.Good] at hg
    obtain ⟨h1, h2⟩ := Kids.tail_get ht hs
    have hn : nodeAt (path ++ [c]) root = some n := by rw [nodeAt_snoc, hp]; exact h1
    have ih1 := vis_node root n hg.1 (path ++ [c]) hn
    have ih2 := vis_kids root r hss.2 hg.2 path v ch hp hs (Kids.tail_tail ht)
    have hasc : ascend root (path ++ [c]).reverse = startK root path r := by
      rw [List.reverse_append]
      simp only [List.reverse_cons, List.reverse_nil, List.nil_append, List.singleton_append]
      rw [ascend, List.reverse_reverse, hp]
      simp only [h2, startK]
      try (cases r <;> rfl)
    rw [hasc] at ih1
    have := (ih1.mono (List.prefix_append path [c])).append ih2
    simp only [startK, Kids.first]
    rw [Kids.ents, List.map_append, List.map_map]
    have hf : (pre path ∘ fun (e : Key × V) => (c :: e.1, e.2)) = pre (path ++ [c]) := by
      funext e; simp [pre]
    rw [hf]
    exact this
end

/-! ### Prefixes -/

theorem vis_filter (root : Node V) (path : List Nat) (f : Key) (m : List (Key × V)) (h : nodeAt path root = some (.hash m)) : ∀ (g i g' : Nat),
    i + g = m.length → g < g' → i ≤ m.length →
    Vis root (nextPre root f) path (filterFrom root path f m g' i) (((m.drop i).filter (hasPrefix f)).map (pre path))
      (ascend root path.reverse)
  | 0, i, g' + 1, hi, hg, _ => by
    rw [filterFrom, List.drop_eq_nil_of_le (by omega), List.getElem?_eq_none (by omega)]
    exact .done _
  | g + 1, i, g' + 1, hi, hg, _ => by
    have hlt : i < m.length := by omega
    rw [filterFrom, List.drop_eq_getElem_cons hlt, List.getElem?_eq_getElem hlt]
    simp only
    have ih := fun g'' hg'' => vis_filter root path f m h g (i + 1) g'' (by omega) hg'' (by omega)
    by_cases hpf : hasPrefix f m[i] = true
    · rw [if_pos hpf, List.filter_cons_of_pos hpf, List.map_cons]
      refine .step _ _ _ _ (List.prefix_refl _) ?_ ?_
      · simp [entryAt, h, hlt, pre]
      · simp only [nextPre, h]
        exact ih _ (by omega)
    · rw [if_neg hpf, List.filter_cons_of_neg hpf]
      exact ih _ (by omega)

/-- `operator++` of the iterators of a range. -/
def Range.next (root : Node V) (r : Range) (p : Pos) : Cur := if r.filt.isEmpty then HatTrie.next root p else nextPre root r.filt p

theorem Kids.filter_ents (c : Nat) (f : Key) : ∀ (ch : Kids V), ch.Sorted → ch.ents.filter (hasPrefix (c :: f)) =
    match ch.get c with | none => [] | some n => (n.ents.filter (hasPrefix f)).map (fun e => (c :: e.1, e.2))
  | .nil, _ => by simp [Kids.ents, Kids.get]
  | .cons d m r, hs => by
    have ih := Kids.filter_ents c f r hs.2
    rw [Kids.ents, List.filter_append, ih, List.filter_map]
    simp only [Kids.get]
    by_cases hd : d = c
    · subst hd
      have hno : r.get d = none := by
        cases hr : r.get d with
        | none => rfl
        | some x => have := hs.1 d x hr; omega
      have hf : (hasPrefix (d :: f) ∘ fun (e : Key × V) => (d :: e.1, e.2)) = hasPrefix f := by
        funext e; simp [hasPrefix]
      simp [hno, hf]
    · have hf : (hasPrefix (c :: f) ∘ fun (e : Key × V) => (d :: e.1, e.2)) = fun _ => false := by
        funext e; simp [hasPrefix, Ne.symm hd, List.isPrefixOf]
      simp [hd, hf]

theorem vis_prefix (root : Node V) : ∀ (f : Key) (path : List Nat) (n : Node V), n.Good → nodeAt path root = some n →
    ∃ q, Vis root ((prefixRange root path f n).next root) q (prefixRange root path f n).first ((n.ents.filter (hasPrefix f)).map (pre path))
      (prefixRange root path f n).last ∧ ∀ p, (prefixRange root path f n).last = .at p → ¬ q <+: p.path
  | [], path, n, hg, hp => by
    refine ⟨path, ?_, ?_⟩
    · have h := vis_node root n hg path hp
      have hall : n.ents.filter (hasPrefix []) = n.ents := by
        rw [List.filter_eq_self]; intro e _; simp [hasPrefix]
      rw [hall]
      cases n with
      | hash m =>
        rw [mostLeft] at h
        have hr : ∀ a b : Cur, (Range.mk a b []).next root = next root := fun a b => by funext p; simp [Range.next]
        simpa [prefixRange, hr] using h
      | trie v ch =>
        have hr : ∀ a b : Cur, (Range.mk a b []).next root = next root := fun a b => by funext p; simp [Range.next]
        simpa [prefixRange, hr] using h
    · intro p h
      have := ascend_path root path.reverse p
      rw [List.reverse_reverse] at this
      apply this
      cases n <;> simpa [prefixRange] using h
  | c :: f, path, .hash m, hg, hp => by
    have hm : m ≠ [] := hg.1
    have hm' : m.isEmpty = false := by cases m <;> simp_all
    refine ⟨path, ?_, ?_⟩
    · have := vis_filter root path (c :: f) m hp m.length 0 (m.length + 1) (by omega) (by omega) (by omega)
      have hr : ∀ a b : Cur, (Range.mk a b (c :: f)).next root = nextPre root (c :: f) := fun a b => by funext p; simp [Range.next]
      simpa [prefixRange, hr, Node.ents, hm'] using this
    · intro p h
      have := ascend_path root path.reverse p
      rw [List.reverse_reverse] at this
      apply this
      simpa [prefixRange, hm'] using h
  | c :: f, path, .trie v ch, hg, hp => by
    rw [Node.ents, List.filter_append, Kids.filter_ents c f ch hg.2.1]
    have h0 : (vents v).filter (hasPrefix (c :: f)) = [] := by
      cases v <;> simp [vents, hasPrefix]
    rw [h0, List.nil_append]
    cases hc : ch.get c with
    | none =>
      refine ⟨[], ?_, ?_⟩
      · simp only [prefixRange, hc]; exact .done _
      · intro p h; simp [prefixRange, hc] at h
    | some x =>
      have hn : nodeAt (path ++ [c]) root = some x := by rw [nodeAt_snoc, hp]; exact hc
      obtain ⟨q, h1, h2⟩ := vis_prefix root f (path ++ [c]) x (Kids.good_get ch c x hg.2.2 hc) hn
      refine ⟨q, ?_, ?_⟩
      · simp only [prefixRange, hc]
        have hf : (pre path ∘ fun (e : Key × V) => (c :: e.1, e.2)) = pre (path ++ [c]) := by
          funext e; simp [pre]
        rw [List.map_map, hf]
        exact h1
      · simp only [prefixRange, hc]; exact h2

end Thot.HatTrie
