import Verif.HatTrie.Props
/-!
# C297: removal of keys
-/
namespace Thot.HatTrie

open Thot

variable {V : Type}

/-! ### Iterators of a good trie are defined -/

mutual
theorem mostLeft_ne_bad : ∀ (n : Node V) (q : List Nat), n.Good → mostLeft q n ≠ .bad
  | .hash m, q, h => by
    have hm : m ≠ [] := h.1
    rw [mostLeft, atHash, if_neg (by simpa using hm)]; simp
  | .trie (some v) ch, q, h => by rw [mostLeft]; simp
  | .trie none ch, q, h => by
    rw [mostLeft]
    exact left_ne_bad ch q h.2.2 (by simpa using h.1)
theorem left_ne_bad : ∀ (ch : Kids V) (q : List Nat), ch.Good → ch ≠ .nil → Kids.left q ch ≠ .bad
  | .nil, q, _, h => absurd rfl h
  | .cons c n r, q, h, _ => by
    rw [Kids.left]
    simp only [Kids.Good] at h
    exact mostLeft_ne_bad n _ h.1
end

theorem Kids.nextAfter_get : ∀ (ch : Kids V) (c d : Nat) (n : Node V), ch.Good → ch.nextAfter c = some (d, n) → n.Good
  | .nil, c, d, n, _, h => by simp [Kids.nextAfter] at h
  | .cons e m r, c, d, n, hg, h => by
    simp only [Kids.Good] at hg
    simp only [Kids.nextAfter] at h
    split at h
    · simp only [Option.some.injEq, Prod.mk.injEq] at h; rw [← h.2]; exact hg.1
    · exact Kids.nextAfter_get r c d n hg.2 h

theorem nodeAt_good : ∀ (p : List Nat) (n m : Node V), n.Good → nodeAt p n = some m → m.Good
  | [], n, m, h, he => by
    have : n = m := by cases n <;> simpa [nodeAt] using he
    rw [← this]; exact h
  | c :: p, .hash _, m, h, he => by simp [nodeAt] at he
  | c :: p, .trie v ch, m, h, he => by
    simp only [nodeAt] at he
    cases hc : ch.get c with
    | none => simp [hc] at he
    | some x =>
      simp only [hc] at he
      exact nodeAt_good p x m (Kids.good_get ch c x h.2.2 hc) he

theorem ascend_ne_bad (root : Node V) (hg : root.Good) : ∀ (rp : List Nat), nodeAt rp.reverse root ≠ none → ascend root rp ≠ .bad
  | [], _ => by simp [ascend]
  | c :: up, h => by
    rw [List.reverse_cons, nodeAt_snoc] at h
    rw [ascend]
    cases hn : nodeAt up.reverse root with
    | none => simp [hn] at h
    | some m =>
      cases m with
      | hash m => simp [hn] at h
      | trie v ch =>
        simp only
        have hm := nodeAt_good _ _ _ hg hn
        cases hna : ch.nextAfter c with
        | none => exact ascend_ne_bad root hg up (by simp [hn])
        | some dn => exact mostLeft_ne_bad _ _ (Kids.nextAfter_get ch c dn.1 dn.2 hm.2.2 hna)

theorem next_ne_bad (root : Node V) (hg : root.Good) (p : Pos) (h : entryAt root p ≠ none) : next root p ≠ .bad := by
  obtain ⟨path, idx⟩ := p
  unfold entryAt at h
  unfold next
  cases hn : nodeAt path root with
  | none => cases idx <;> simp [hn] at h
  | some m =>
    have hm := nodeAt_good _ _ _ hg hn
    cases m with
    | hash m =>
      cases idx with
      | none => simp [hn] at h
      | some i =>
        simp only
        split
        · simp
        · exact ascend_ne_bad root hg _ (by simp [hn])
    | trie v ch =>
      cases idx with
      | some i => simp [hn] at h
      | none =>
        simp only
        cases ch with
        | nil => exact ascend_ne_bad root hg _ (by simp [hn])
        | cons c n r =>
          simp only [Kids.first]
          have := hm.2.2
          simp only [Kids.Good] at this
          exact mostLeft_ne_bad n _ this.1

theorem lk_findIdx (k : Key) : ∀ (m : List (Key × V)) (v : V), AMap.lk m k = some v →
    m[m.findIdx fun e => decide (e.1 = k)]? = some (k, v)
  | [], v, h => by simp [AMap.lk] at h
  | e :: m, v, h => by
    rw [AMap.lk] at h
    rw [List.findIdx_cons]
    by_cases he : e.1 = k
    · rw [if_pos he] at h
      simp only [Option.some.injEq] at h
      obtain ⟨a, b⟩ := e
      simp only at he h
      simp [he, h]
    · rw [if_neg he] at h
      simp only [he, decide_false, cond_false, List.getElem?_cons_succ]
      exact lk_findIdx k m v h

theorem posOf_spec (root : Node V) : ∀ (k : Key) (path : List Nat) (n : Node V), nodeAt path root = some n →
    match find k n with
    | none => posOf path k n = none
    | some v => ∃ p, posOf path k n = some p ∧ entryAt root p = some (path ++ k, v)
  | k, path, .hash m, hn => by
    rw [find, posOf]
    cases hl : AMap.lk m k with
    | none => simp
    | some v =>
      refine ⟨⟨path, some (m.findIdx fun e => decide (e.1 = k))⟩, by simp, ?_⟩
      simp [entryAt, hn, lk_findIdx k m v hl]
  | [], path, .trie v ch, hn => by
    rw [find, posOf]
    cases v with
    | none => simp
    | some v => exact ⟨⟨path, none⟩, by simp, by simp [entryAt, hn]⟩
  | c :: k, path, .trie v ch, hn => by
    rw [find, posOf]
    cases hc : ch.get c with
    | none => rfl
    | some x =>
      have := posOf_spec root k (path ++ [c]) x (by rw [nodeAt_snoc, hn]; exact hc)
      simp only
      cases hf : find k x with
      | none => simpa [hf] using this
      | some w => simpa [hf] using this

/-! ### Removal -/

theorem Kids.get_del (c : Nat) : ∀ (ch : Kids V), ch.Sorted → ∀ d, (ch.del c).get d = if d = c then none else ch.get d
  | .nil, _, d => by simp [Kids.del, Kids.get]
  | .cons e m r, hs, d => by
    simp only [Kids.del]
    by_cases he : e = c
    · rw [if_pos he]
      simp only [Kids.get]
      by_cases hd : d = c
      · rw [if_pos hd]
        cases hr : r.get d with
        | none => rfl
        | some x => have := hs.1 d x hr; omega
      · rw [if_neg hd, if_neg (by omega)]
    · rw [if_neg he]
      simp only [Kids.get, Kids.get_del c r hs.2]
      by_cases hd : d = c
      · rw [if_pos hd, if_neg (by omega)]; simp [hd]
      · simp [hd]

theorem Kids.sorted_del (c : Nat) : ∀ (ch : Kids V), ch.Sorted → (ch.del c).Sorted
  | .nil, _ => by simp [Kids.del, Kids.Sorted]
  | .cons e m r, hs => by
    simp only [Kids.del]
    split
    · exact hs.2
    · refine ⟨?_, Kids.sorted_del c r hs.2⟩
      intro d n hd
      rw [Kids.get_del c r hs.2] at hd
      split at hd
      · simp at hd
      · exact hs.1 d n hd

theorem Kids.good_del (c : Nat) (ch : Kids V) (hs : ch.Sorted) (hg : ch.Good) : (ch.del c).Good := by
  refine Kids.good_of_get _ (Kids.sorted_del c ch hs) ?_
  intro d n hd
  rw [Kids.get_del c ch hs] at hd
  split at hd
  · simp at hd
  · exact Kids.good_get ch d n hg hd

theorem Kids.del_ne_nil (c : Nat) (ch : Kids V) (h : 1 < ch.count) : ch.del c ≠ .nil := by
  cases ch with
  | nil => simp [Kids.count] at h
  | cons d n r =>
    cases r with
    | nil => simp [Kids.count] at h
    | cons e m r =>
      simp only [Kids.del]
      split <;> simp

theorem Kids.only_child (c d : Nat) (n m : Node V) (ch : Kids V) (h : ch.count ≤ 1) (h1 : ch.get c = some n) (h2 : ch.get d = some m) : d = c := by
  cases ch with
  | nil => simp [Kids.get] at h1
  | cons e x r =>
    cases r with
    | cons _ _ _ => simp [Kids.count] at h
    | nil =>
      simp only [Kids.get] at h1 h2
      split at h1 <;> split at h2 <;> simp_all

/-- Removal from a good trie: the lookups, and the trie is good again unless the value was that of a trie node without children. -/
theorem eraseN_spec : ∀ (k : Key) (n : Node V), n.Good → find k n ≠ none →
    (∀ k', find k' (eraseN k n) = if k' = k then none else find k' n) ∧
    ((∀ v, nodeAt k n ≠ some (.trie v .nil)) → (eraseN k n).Ok)
  | k, .hash m, hg, hf => by
    rw [eraseN]
    refine ⟨fun k' => by rw [find, find, AMap.lk_del hg.2], fun _ => ?_⟩
    by_cases hm : AMap.del m k = []
    · exact Or.inl (by rw [hm])
    · exact Or.inr ⟨hm, AMap.distinct_del hg.2 k⟩
  | [], .trie v ch, hg, hf => by
    rw [eraseN]
    refine ⟨fun k' => ?_, fun h => ?_⟩
    · cases k' <;> simp [find]
    · refine Or.inr ⟨Or.inr ?_, hg.2⟩
      intro he
      subst he
      exact h v rfl
  | c :: k, .trie v ch, hg, hf => by
    simp only [find] at hf
    cases hc : ch.get c with
    | none => simp [hc] at hf
    | some x =>
      simp only [hc] at hf
      obtain ⟨i1, i2⟩ := eraseN_spec k x (Kids.good_get ch c x hg.2.2 hc) hf
      simp only [eraseN, hc, nodeAt]
      have hset : ∀ k', find k' (Node.trie v (ch.set c (eraseN k x))) = if k' = c :: k then none else find k' (Node.trie v ch) := by
        intro k'
        cases k' with
        | nil => simp [find]
        | cons d k' =>
          simp only [find, Kids.get_set]
          by_cases hd : c = d
          · subst hd; simp [i1, hc]
          · simp [hd, Ne.symm hd]
      have hgs : (eraseN k x).Good → (Node.trie v (ch.set c (eraseN k x))).Ok := fun h =>
        Or.inr ⟨Or.inr (Kids.set_ne_nil _ _ _), Kids.sorted_set _ _ _ hg.2.1, Kids.good_set ch c _ hg.2.1 hg.2.2 h⟩
      unfold clearUp
      split
      · rename_i n he
        rw [he] at i1
        have hx : ∀ k', k' ≠ k → find k' x = none := by
          intro k' hk
          have := i1 k'
          rw [if_neg hk] at this
          rw [← this]; simp [find, AMap.lk]
        split
        · rename_i hcond
          refine ⟨fun k' => ?_, fun _ => ?_⟩
          · cases k' with
            | nil => simp [find]
            | cons d k' =>
              simp only [find, Kids.get_del c ch hg.2.1]
              by_cases hd : d = c
              · subst hd
                simp only [if_true, hc]
                by_cases hk : k' = k
                · simp [hk]
                · simp [hk, hx k' hk]
              · simp [hd]
          · refine Or.inr ⟨?_, Kids.sorted_del c ch hg.2.1, Kids.good_del c ch hg.2.1 hg.2.2⟩
            simp only [Bool.or_eq_true, decide_eq_true_eq] at hcond
            rcases hcond with h | h
            · exact Or.inl h
            · exact Or.inr (Kids.del_ne_nil c ch h)
        · rename_i hcond
          simp only [Bool.or_eq_true, decide_eq_true_eq, not_or] at hcond
          refine ⟨fun k' => ?_, fun _ => Or.inl rfl⟩
          have hv : v = none := by cases v <;> simp_all
          cases k' with
          | nil => simp [find, AMap.lk, hv]
          | cons d k' =>
            simp only [find, AMap.lk]
            cases hd : ch.get d with
            | none => simp
            | some y =>
              have := Kids.only_child c d x y ch (by omega) hc hd
              subst this
              rw [hc] at hd
              simp only [Option.some.injEq] at hd
              subst hd
              by_cases hk : k' = k
              · simp [hk]
              · simp [hk, hx k' hk]
      · rename_i hne
        refine ⟨hset, fun h => ?_⟩
        rcases i2 h with h | h
        · exact absurd h hne
        · exact hgs h

/-- The value of the key is in a trie node without children. -/
def Childless (st : State V) (k : Key) : Prop := ∃ n v, st.root = some n ∧ nodeAt k n = some (.trie v .nil)

/-- A step of a history with removals: `none` if it is undefined. -/
inductive Op2 (V : Type) where
  | op (o : Op V)
  | erase (k : Key)

/-- The step. -/
def step2 (th : Nat) (d : V) (st : State V) : Op2 V → Option (State V)
  | .op o => some (step th d st o).1
  | .erase k => (st.erase k).map fun r => r.1

/-- The same on the ideal map. -/
def ideal2 (f : Key → Option V) : Op2 V → Key → Option V
  | .op o => (ideal f o).1
  | .erase k => fun k' => if k' = k then none else f k'

/-- A history. -/
def run2 (th : Nat) (d : V) : State V → List (Op2 V) → Option (State V)
  | st, [] => some st
  | st, o :: ops => (step2 th d st o).bind fun st' => run2 th d st' ops

/-- A trie with the lookups `f`, whose root may be an empty table. -/
structure Rep2 (st : State V) (f : Key → Option V) : Prop where
  find : ∀ k, st.find k = f k
  ok : ∀ n, st.root = some n → n.Ok
  nb : st.nb = ((st.root.map Node.ents).getD []).length

/-- The removals of the history never hit the value of a trie node without children. -/
def Allowed (th : Nat) (d : V) : State V → List (Op2 V) → Prop
  | _, [] => True
  | st, o :: ops => (∀ k, o = .erase k → ¬ Childless st k) ∧ ∀ st', step2 th d st o = some st' → Allowed th d st' ops

theorem ents_root2 (st : State V) (hg : ∀ n, st.root = some n → n.Ok) : AMap.Distinct ((st.root.map Node.ents).getD []) ∧
    ∀ k, AMap.lk ((st.root.map Node.ents).getD []) k = st.find k := by
  cases hr : st.root with
  | none => exact ⟨AMap.distinct_nil, fun k => by simp [State.find, hr, AMap.lk]⟩
  | some n =>
    rcases hg n hr with h | h
    · subst h; exact ⟨AMap.distinct_nil, fun k => by simp [State.find, hr, HatTrie.find, Node.ents, AMap.lk]⟩
    · exact ⟨Node.distinct_ents n h, fun k => by simp [State.find, hr, Node.lk_ents n h]⟩

/-- The same map with no root if the root is an empty table. -/
def State.trim (st : State V) : State V := match st.root with
  | some (.hash []) => ⟨none, st.nb⟩
  | _ => st

theorem rep_trim (st : State V) (f : Key → Option V) (h : Rep2 st f) : Rep st.trim f := by
  obtain ⟨h1, h2, h3⟩ := h
  unfold State.trim
  split
  · rename_i hr
    refine ⟨fun k => by rw [← h1 k]; simp [State.find, hr, HatTrie.find, AMap.lk], fun n hn => by simp at hn, ?_⟩
    simp [h3, hr, Node.ents]
  · rename_i hr
    refine ⟨h1, fun n hn => ?_, h3⟩
    rcases h2 n hn with h | h
    · subst h; exact absurd hn hr
    · exact h

theorem Rep.rep2 {st : State V} {f : Key → Option V} (h : Rep st f) : Rep2 st f := ⟨h.find, fun n hn => Or.inr (h.good n hn), h.nb⟩

theorem insert_trim (th : Nat) (st : State V) (k : Key) (v : V) : (st.trim).insert th k v = st.insert th k v := by
  unfold State.trim
  split
  · rename_i h; simp [State.insert, h]
  · rfl

theorem put_trim (th : Nat) (d : V) (st : State V) (k : Key) (v : V) : st.trim.put th d k v = st.put th d k v := by
  have hf : st.trim.find k = st.find k := by
    unfold State.trim
    split
    · rename_i h; simp [State.find, h, HatTrie.find, AMap.lk]
    · rfl
  unfold State.put
  rw [hf, insert_trim]
  split
  · rename_i w hw
    have : st.trim = st := by
      unfold State.trim
      split
      · rename_i h; simp [State.find, h, HatTrie.find, AMap.lk] at hw
      · rfl
    rw [this]
  · rfl

theorem step_trim (th : Nat) (d : V) (st : State V) (o : Op V) : (step th d st.trim o).1 = (step th d st o).1 := by
  cases o with
  | insert k v => simp [step, insert_trim]
  | put k v => simp [step, put_trim]
  | clear => rfl

theorem erase_spec (st : State V) (f : Key → Option V) (h : Rep2 st f) (k : Key) (hc : ¬ Childless st k) :
    ∃ st', st.erase k = some (st', if f k = none then 0 else 1) ∧ Rep2 st' (ideal2 f (.erase k)) := by
  cases hr : st.root with
  | none =>
    have hf : ∀ k', f k' = none := fun k' => by rw [← h.find k']; simp [State.find, hr]
    have hi : ideal2 f (.erase k) = f := by funext k'; simp [ideal2, hf]
    refine ⟨st, ?_, by rw [hi]; exact h⟩
    simp [State.erase, hr, hf]
  | some n =>
    have hfn : ∀ k', find k' n = f k' := fun k' => by rw [← h.find k']; simp [State.find, hr]
    have hp := posOf_spec n k [] n rfl
    cases hk : f k with
    | none =>
      rw [hfn k, hk] at hp
      have hi : ideal2 f (.erase k) = f := by funext k'; simp only [ideal2]; split <;> simp_all
      refine ⟨st, ?_, by rw [hi]; exact h⟩
      simp [State.erase, hr, hp]
    | some v =>
      rw [hfn k, hk] at hp
      obtain ⟨p, p1, p2⟩ := hp
      have hg : n.Good := by
        rcases h.ok n hr with h0 | h0
        · have := hfn k
          rw [h0, hk] at this; simp [find, AMap.lk] at this
        · exact h0
      have hnb := next_ne_bad n hg p (by rw [p2]; simp)
      obtain ⟨e1, e2⟩ := eraseN_spec k n hg (by rw [hfn, hk]; simp)
      have hok := e2 (fun v hv => hc ⟨n, v, hr, hv⟩)
      refine ⟨⟨some (eraseN k n), st.nb - 1⟩, by simp [State.erase, hr, p1, hnb], ?_⟩
      have hfind : ∀ k', State.find ⟨some (eraseN k n), st.nb - 1⟩ k' = ideal2 f (.erase k) k' := by
        intro k'; simp only [State.find, ideal2, e1, hfn]
      have hgood : ∀ m, (State.mk (some (eraseN k n)) (st.nb - 1)).root = some m → m.Ok := by
        intro m hm; simp only [Option.some.injEq] at hm; rw [← hm]; exact hok
      refine ⟨hfind, hgood, ?_⟩
      obtain ⟨d1, l1⟩ := ents_root2 st h.ok
      obtain ⟨d2, l2⟩ := ents_root2 ⟨some (eraseN k n), st.nb - 1⟩ hgood
      have := length_upd _ _ d2 d1 k v (fun k' => by
        rw [l1, l2, hfind, h.find]
        simp only [ideal2]
        by_cases hkk : k' = k
        · simp [hkk, hk]
        · simp [hkk])
      rw [l2, hfind] at this
      simp only [ideal2, if_true] at this
      rw [← h.nb] at this
      simp only [this]
      omega

theorem rep2_step (th : Nat) (d : V) (st : State V) (f : Key → Option V) (h : Rep2 st f) (o : Op2 V) (hc : ∀ k, o = .erase k → ¬ Childless st k) :
    ∃ st', step2 th d st o = some st' ∧ Rep2 st' (ideal2 f o) := by
  cases o with
  | op o =>
    refine ⟨_, rfl, ?_⟩
    rw [← step_trim]
    exact (rep_step th d st.trim f (rep_trim st f h) o).1.rep2
  | erase k =>
    obtain ⟨st', h1, h2⟩ := erase_spec st f h k (hc k rfl)
    exact ⟨st', by simp [step2, h1], h2⟩

/-- **C297** (partial): after every history of insertions, assignments, `clear` and removals, none of which hits the value of a trie node without
children, every removal was defined, and lookups and size are those of the ideal map. The next removal returns 1 if the key is there. Missing: removals of the
value of a trie node without children (then iterators are undefined, see the counterexample). -/
theorem C297_erase_partial (th : Nat) (d : V) (ops : List (Op2 V)) (h : Allowed th d State.new ops) :
    ∃ st, run2 th d State.new ops = some st ∧ (∀ k, st.find k = (ops.foldl ideal2 fun _ => none) k) ∧
      (∃ l, Contents (ops.foldl ideal2 fun _ => none) l ∧ st.nb = l.length) ∧
      ∀ k, ¬ Childless st k → ∃ st', st.erase k = some (st', if st.find k = none then 0 else 1) := by
  have key : ∀ (ops : List (Op2 V)) (st : State V) (f : Key → Option V), Rep2 st f → Allowed th d st ops →
      ∃ st', run2 th d st ops = some st' ∧ Rep2 st' (ops.foldl ideal2 f) := by
    intro ops
    induction ops with
    | nil => intro st f h _; exact ⟨st, rfl, h⟩
    | cons o ops ih =>
      intro st f h ha
      obtain ⟨st', h1, h2⟩ := rep2_step th d st f h o ha.1
      obtain ⟨st2, h3, h4⟩ := ih st' _ h2 (ha.2 st' h1)
      exact ⟨st2, by simp [run2, h1, h3], h4⟩
  obtain ⟨st, h1, h2⟩ := key ops State.new (fun _ => none) ⟨fun k => rfl, fun n hn => by simp [State.new] at hn, rfl⟩ h
  obtain ⟨d1, l1⟩ := ents_root2 st h2.ok
  refine ⟨st, h1, h2.find, ⟨_, ⟨d1, fun k v => ?_⟩, h2.nb⟩, fun k hk => ?_⟩
  · rw [← AMap.lk_some_iff d1, l1, h2.find]
  · obtain ⟨st', h3, _⟩ := erase_spec st _ h2 k hk
    exact ⟨st', by rw [h3, h2.find]⟩

/-- The full claim: with removals, histories are defined and the loop over the map still reads the entries of the ideal map. -/
def C297_full : Prop := ∀ (th : Nat) (ops : List (Op2 Nat)), ∃ st, run2 th 0 State.new ops = some st ∧
  ∃ l fuel, st.loopAll fuel = some l ∧ Contents (ops.foldl ideal2 fun _ => none) l

/-- Five keys burst the root and the table of the child; then the keys are removed, the value of the child last; another key is left. -/
def badOps : List (Op2 Nat) :=
  [.op (.insert [97] 1), .op (.insert [97, 98] 2), .op (.insert [97, 99] 3), .op (.insert [97, 100] 4), .op (.insert [97, 101] 5),
    .erase [97, 98], .erase [97, 99], .erase [97, 100], .erase [97, 101], .op (.insert [98] 6), .erase [97]]

theorem badOps_state : run2 4 0 State.new badOps = some ⟨some (.trie none (.cons 97 (.trie none .nil) (.cons 98 (.hash [([], 6)]) .nil))), 1⟩ := by
  rfl

theorem C297_counterexample : ¬ C297_full := by
  intro h
  obtain ⟨st, h1, l, fuel, h2, h3⟩ := h 4 badOps
  rw [badOps_state] at h1
  simp only [Option.some.injEq] at h1
  subst h1
  simp only [State.loopAll, State.begin, mostLeft, Kids.left] at h2
  cases fuel <;> simp [loop] at h2

/-- The removal of the only key leaves an empty table as the root, and the range of a prefix is undefined. -/
theorem C297_prefix_counterexample : ∃ st : State Nat, run2 4 0 State.new [.op (.insert [97] 1), .erase [97]] = some st ∧ st.nb = 0 ∧
    (st.prefixRange [97]).first = .bad ∧ (st.prefixRange [97]).last = .fin := ⟨_, rfl, rfl, rfl, rfl⟩

/-! ### Non-vacuity -/

/-- A history with a burst and with removals in tables and of the value of a trie node with children. -/
def goodOps : List (Op2 Nat) :=
  [.op (.insert [97] 1), .op (.insert [97, 98] 2), .op (.insert [97, 99] 3), .op (.insert [97, 100] 4), .op (.insert [97, 101] 5),
    .erase [97], .erase [97, 98], .erase [97, 98]]

example : Allowed 4 0 (State.new : State Nat) goodOps := by
  simp only [goodOps, Allowed]
  refine ⟨by simp, ?_⟩; intro st h; obtain rfl := Option.some.inj h
  refine ⟨by simp, ?_⟩; intro st h; obtain rfl := Option.some.inj h
  refine ⟨by simp, ?_⟩; intro st h; obtain rfl := Option.some.inj h
  refine ⟨by simp, ?_⟩; intro st h; obtain rfl := Option.some.inj h
  refine ⟨by simp, ?_⟩; intro st h; obtain rfl := Option.some.inj h
  refine ⟨?_, ?_⟩
  · intro k hk ⟨n, v, h1, h2⟩
    simp only [Op2.erase.injEq] at hk
    subst hk
    obtain rfl := Option.some.inj h1
    exact absurd h2 (by intro hh; nomatch hh)
  · intro st h; obtain rfl := Option.some.inj h
    refine ⟨?_, ?_⟩
    · intro k hk ⟨n, v, h1, h2⟩
      simp only [Op2.erase.injEq] at hk
      subst hk
      obtain rfl := Option.some.inj h1
      exact absurd h2 (by intro hh; nomatch hh)
    · intro st h; obtain rfl := Option.some.inj h
      refine ⟨?_, fun _ _ => trivial⟩
      intro k hk ⟨n, v, h1, h2⟩
      simp only [Op2.erase.injEq] at hk
      subst hk
      obtain rfl := Option.some.inj h1
      exact absurd h2 (by intro hh; nomatch hh)

end Thot.HatTrie
