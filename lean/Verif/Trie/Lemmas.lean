import Verif.Trie.Model
/-! Helper lemmas for the trie (not part of the claims). -/
set_option linter.unusedSectionVars false
namespace Thot.Trie

variable {K D : Type} [DecidableEq K]

/-- Keys of a list of siblings. -/
def lvlKeys : T K D → List K
  | .node k _ _ n => k :: lvlKeys n
  | _ => []

/-- Below the root there is no uninitialised node and siblings have different keys. -/
def WF : T K D → Prop
  | .nil => True
  | .raw _ => False
  | .node k _ c n => WF c ∧ WF n ∧ k ∉ lvlKeys n

theorem find_nil (ks : List K) : find (.nil : T K D) ks = none := by cases ks <;> rfl

theorem find_raw (d : D) {ks : List K} (h : ks ≠ []) : find (.raw d : T K D) ks = none := by
  cases ks with
  | nil => exact absurd rfl h
  | cons k ks => rfl

theorem find_node (k' : K) (d : D) (c n : T K D) (k : K) (ks : List K) :
    find (.node k' d c n) (k :: ks) = if k' = k then (if ks = [] then some d else find c ks) else find n (k :: ks) := by
  unfold find
  rw [getState]
  split
  · cases ks with
    | nil => simp [data]
    | cons a r => simp
  · rfl

theorem isNil_iff {t : T K D} : isNil t = true ↔ t = .nil := by cases t <;> simp [isNil]

/-- Value found in a fresh chain. -/
theorem find_chain (dflt d d0 : D) (ks : List K) (hk : ks ≠ []) (k' : K) (ks' : List K) :
    find (chain dflt d d0 ks) (k' :: ks') =
      if k' :: ks' = ks then some d else if (k' :: ks').isPrefixOf ks then some (if ks' = [] then d0 else dflt) else none := by
  induction ks generalizing d0 k' ks' with
  | nil => exact absurd rfl hk
  | cons k ks ih =>
    cases ks with
    | nil =>
      rw [chain, find_node]
      by_cases h : k = k'
      · subst h
        cases ks' with
        | nil => simp
        | cons a r => simp [find_nil]
      · have : ¬ k' = k := fun hh => h hh.symm
        simp [h, this, find_nil]
    | cons k2 ks =>
      rw [chain, find_node]
      by_cases h : k = k'
      · subst h
        cases ks' with
        | nil => simp
        | cons a r =>
          simp only [if_true, List.cons_ne_nil, if_false]
          rw [ih dflt (by simp) a r]
          simp only [List.cons.injEq, true_and, List.isPrefixOf_cons_cons_self, ite_self]
      · have : ¬ k' = k := fun hh => h hh.symm
        simp [h, this, find_nil]

/-- Value of a prefix newly created by an insertion in `t`: the data of an uninitialised root for a single key. -/
def newData (dflt : D) (t : T K D) (ks : List K) : D :=
  match t, ks with
  | .raw d0, [_] => d0
  | _, _ => dflt

theorem find_insert_node (dflt d : D) (t : T K D) (k' : K) (d' : D) (c n : T K D) (ht : t = .node k' d' c n)
    (hw : WF t)
    (ks : List K) (hk : ks ≠ []) (a : K) (r : List K) : find (insert dflt d t ks) (a :: r) =
      if a :: r = ks then some d
      else match find t (a :: r) with
        | some x => some x
        | none => if (a :: r).isPrefixOf ks then some dflt else none := by
  induction t generalizing k' d' c n ks a r with
  | nil => cases ht
  | raw => cases ht
  | node k0 d0 c0 n0 ihc ihn =>
    injection ht with h1 h2 h3 h4
    subst h1 h2 h3 h4
    obtain ⟨hw1, hw2, _⟩ := hw
    cases ks with
    | nil => exact absurd rfl hk
    | cons k ks =>
      rw [insert]
      split
      · rename_i hkk
        subst hkk
        cases ks with
        | nil =>
          simp only [List.isEmpty_nil, List.isEmpty_cons, if_true, Bool.false_eq_true, if_false, find_node]
          by_cases h : k0 = a
          · subst h
            cases r with
            | nil => simp
            | cons b r' =>
              simp only [if_true, List.cons_ne_nil, if_false]
              cases hf : find c0 (b :: r') <;> simp
          · have : ¬ a = k0 := fun hh => h hh.symm
            simp only [h, if_false, List.cons.injEq, this, false_and]
            cases hf : find n0 (a :: r) <;> simp [this]
        | cons k2 ks =>
          simp only [List.isEmpty_nil, List.isEmpty_cons, if_true, Bool.false_eq_true, if_false, find_node]
          by_cases h : k0 = a
          · subst h
            cases r with
            | nil => simp
            | cons b r' =>
              simp only [if_true, List.cons_ne_nil, if_false]
              by_cases hc : isNil c0 = true
              · rw [if_pos hc, find_chain _ _ _ _ (by simp)]
                rw [isNil_iff.1 hc, find_nil]
                simp only [List.cons.injEq, true_and, List.isPrefixOf_cons_cons_self, ite_self]
              · rw [if_neg hc]
                cases c0 with
                | nil => simp [isNil] at hc
                | raw d1 => exact absurd hw1 (by simp [WF])
                | node k1 d1 c1 n1 =>
                  rw [ihc k1 d1 c1 n1 rfl hw1 (k2 :: ks) (by simp) b r']
                  simp only [List.cons.injEq, true_and, List.isPrefixOf_cons_cons_self]
          · have : ¬ a = k0 := fun hh => h hh.symm
            simp only [h, if_false, List.cons.injEq, this, false_and]
            cases hf : find n0 (a :: r) <;> simp [this]
      · rename_i hkk
        by_cases hn : isNil n0 = true
        · rw [if_pos hn]
          simp only [find_node, isNil_iff.1 hn, find_nil]
          by_cases h : k0 = a
          · subst h
            have : ¬ k0 = k := hkk
            simp only [if_true, List.cons.injEq, hkk, false_and, if_false]
            cases r with
            | nil => simp
            | cons b r' => simp only [List.cons_ne_nil, if_false]; cases hf : find c0 (b :: r') <;> simp [this]
          · simp only [h, if_false]
            rw [find_chain _ _ _ _ (by simp)]
            simp
        · rw [if_neg hn]
          simp only [List.isEmpty_nil, List.isEmpty_cons, if_true, Bool.false_eq_true, if_false, find_node]
          by_cases h : k0 = a
          · subst h
            have : ¬ k0 = k := hkk
            simp only [if_true, List.cons.injEq, hkk, false_and, if_false]
            cases r with
            | nil => simp
            | cons b r' => simp only [List.cons_ne_nil, if_false]; cases hf : find c0 (b :: r') <;> simp [this]
          · simp only [h, if_false]
            cases n0 with
            | nil => simp [isNil] at hn
            | raw d1 => exact absurd hw2 (by simp [WF])
            | node k1 d1 c1 n1 => rw [ihn k1 d1 c1 n1 rfl hw2 (k :: ks) (by simp) a r]

theorem insert_ne_nil (dflt d : D) {t : T K D} (h : t ≠ .nil) (ks : List K) : insert dflt d t ks ≠ .nil := by
  cases ks with
  | nil => cases t <;> simp_all [insert]
  | cons k ks =>
    cases t with
    | nil => exact absurd rfl h
    | raw d0 => cases ks <;> simp [insert, chain]
    | node k0 d0 c n => rw [insert]; split <;> split <;> simp

theorem wf_chain (dflt d d0 : D) (ks : List K) : WF (chain dflt d d0 ks) := by
  induction ks generalizing d0 with
  | nil => trivial
  | cons k ks ih =>
    cases ks with
    | nil => exact ⟨trivial, trivial, by simp [lvlKeys]⟩
    | cons k2 ks => exact ⟨ih dflt, trivial, by simp [lvlKeys]⟩

theorem lvlKeys_chain (dflt d d0 : D) (k : K) (ks : List K) : lvlKeys (chain dflt d d0 (k :: ks)) = [k] := by
  cases ks <;> rfl

theorem lvlKeys_insert (dflt d : D) (t : T K D) (ht : t ≠ .nil) (k : K) (ks : List K) (hw : WF t) (x : K) :
    x ∈ lvlKeys (insert dflt d t (k :: ks)) ↔ x ∈ lvlKeys t ∨ x = k := by
  induction t with
  | nil => exact absurd rfl ht
  | raw d0 => exact absurd hw (by simp [WF])
  | node k0 d0 c n _ ihn =>
    rw [insert]
    split
    · rename_i h; subst h; split <;> simp [lvlKeys] <;> grind
    · split
      · rename_i hn
        rw [isNil_iff.1 hn]
        simp only [lvlKeys, lvlKeys_chain]; simp
      · rename_i hn
        have : n ≠ .nil := by intro h; rw [h] at hn; simp [isNil] at hn
        simp only [lvlKeys, List.mem_cons, ihn this hw.2.1]; grind

theorem wf_insert (dflt d : D) (t : T K D) (ks : List K) (hw : WF t) : WF (insert dflt d t ks) := by
  induction t generalizing ks with
  | nil => cases ks <;> exact trivial
  | raw d0 => exact absurd hw (by simp [WF])
  | node k0 d0 c n ihc ihn =>
    obtain ⟨h1, h2, h3⟩ := hw
    cases ks with
    | nil => exact ⟨h1, h2, h3⟩
    | cons k ks =>
      rw [insert]
      split
      · split
        · exact ⟨h1, h2, h3⟩
        · refine ⟨?_, h2, h3⟩
          split
          · exact wf_chain _ _ _ _
          · exact ihc ks h1
      · rename_i hk
        split
        · rename_i hn
          refine ⟨h1, wf_chain _ _ _ _, ?_⟩
          rw [lvlKeys_chain]; simpa using hk
        · rename_i hn
          refine ⟨h1, ihn (k :: ks) h2, ?_⟩
          rw [lvlKeys_insert dflt d n (by intro h; rw [h] at hn; simp [isNil] at hn) k ks h2]
          simp [h3, hk]

theorem find_modify (f : D → D) (t : T K D) (ks : List K) (hk : ks ≠ []) (a : K) (r : List K) :
    find (modify f t ks) (a :: r) = if a :: r = ks then (find t (a :: r)).map f else find t (a :: r) := by
  induction t generalizing ks a r with
  | nil => cases ks <;> simp [modify, find_nil]
  | raw d0 =>
    cases ks with
    | nil => exact absurd rfl hk
    | cons k ks => simp [modify, find_raw]
  | node k0 d0 c n ihc ihn =>
    cases ks with
    | nil => exact absurd rfl hk
    | cons k ks =>
      rw [modify]
      split
      · rename_i h; subst h
        cases ks with
        | nil =>
          simp only [List.isEmpty_nil, if_true, find_node]
          by_cases h : k0 = a
          · subst h; cases r <;> simp
          · have : ¬ a = k0 := fun hh => h hh.symm
            simp [h, this]
        | cons k2 ks =>
          simp only [List.isEmpty_cons, Bool.false_eq_true, if_false, find_node]
          by_cases h : k0 = a
          · subst h
            cases r with
            | nil => simp
            | cons b r' =>
              simp only [if_true, List.cons_ne_nil, if_false]
              rw [ihc (k2 :: ks) (by simp) b r']
              simp
          · have : ¬ a = k0 := fun hh => h hh.symm
            simp [h, this]
      · rename_i hk
        simp only [find_node]
        by_cases h : k0 = a
        · subst h; simp [hk]
        · simp only [h, if_false]
          rw [ihn (k :: ks) (by simp) a r]

theorem lvlKeys_modify (f : D → D) (t : T K D) (ks : List K) : lvlKeys (modify f t ks) = lvlKeys t := by
  induction t generalizing ks with
  | nil => cases ks <;> rfl
  | raw d0 => cases ks <;> rfl
  | node k0 d0 c n _ ihn =>
    cases ks with
    | nil => rfl
    | cons k ks =>
      rw [modify]
      split
      · split <;> rfl
      · simp only [lvlKeys, ihn]

theorem wf_modify (f : D → D) (t : T K D) (ks : List K) (hw : WF t) : WF (modify f t ks) := by
  induction t generalizing ks with
  | nil => cases ks <;> exact trivial
  | raw d0 => exact absurd hw (by simp [WF])
  | node k0 d0 c n ihc ihn =>
    obtain ⟨h1, h2, h3⟩ := hw
    cases ks with
    | nil => exact ⟨h1, h2, h3⟩
    | cons k ks =>
      rw [modify]
      split
      · split
        · exact ⟨h1, h2, h3⟩
        · exact ⟨ihc ks h1, h2, h3⟩
      · exact ⟨h1, ihn _ h2, by rw [lvlKeys_modify]; exact h3⟩

/-- Post-order listing: children before their node, siblings in order. `pre` is the path so far, deepest first. -/
def post (pre : List K) : T K D → List (List K × D)
  | .node k d c n => post (k :: pre) c ++ ((k :: pre).reverse, d) :: post pre n
  | _ => []

/-- What an iterator still has to visit, the current node included. -/
def rem : List (T K D) → List K → List (List K × D)
  | .node _ d _ n :: p, ks => (ks.reverse, d) :: (post ks.tail n ++ rem p ks.tail)
  | _, _ => []

def AllNodes (p : List (T K D)) : Prop := ∀ t ∈ p, ∃ k d c n, t = .node k d c n

theorem descend_spec (t : T K D) (k : K) (d : D) (c n : T K D) (ht : t = .node k d c n) (p : List (T K D)) (ks : List K)
    (hp : AllNodes p) : AllNodes (descend t p ks).path ∧
      rem (descend t p ks).path (descend t p ks).keys = post ks t ++ rem p ks := by
  induction t generalizing k d c n p ks with
  | nil => cases ht
  | raw => cases ht
  | node k0 d0 c0 n0 ihc _ =>
    have hp' : AllNodes (.node k0 d0 c0 n0 :: p) := by
      intro x hx
      rcases List.mem_cons.1 hx with rfl | hx
      · exact ⟨_, _, _, _, rfl⟩
      · exact hp x hx
    cases c0 with
    | nil => exact ⟨hp', by simp [descend, rem, post]⟩
    | raw d1 => exact ⟨hp', by simp [descend, rem, post]⟩
    | node k1 d1 c1 n1 =>
      obtain ⟨h1, h2⟩ := ihc k1 d1 c1 n1 rfl _ (k0 :: ks) hp'
      refine ⟨h1, ?_⟩
      rw [descend, h2]
      simp [rem, post]

theorem collect_eq (f : Nat) (it : Iter K D) (hp : AllNodes it.path) :
    collect f it = (rem it.path it.keys).take f := by
  induction f generalizing it with
  | zero => rfl
  | succ f ih =>
    obtain ⟨path, keys⟩ := it
    cases path with
    | nil => simp [collect, deref, rem]
    | cons t p =>
      obtain ⟨k, d, c, n, rfl⟩ := hp t List.mem_cons_self
      have hp' : AllNodes p := fun x hx => hp x (List.mem_cons_of_mem _ hx)
      rw [collect]
      simp only [deref, data, Option.map_some]
      simp only [rem, List.take_succ_cons]
      congr 1
      cases n with
      | nil => rw [incr]; simp only; rw [ih _ hp']; simp [post]
      | raw d1 => rw [incr]; simp only; rw [ih _ hp']; simp [post]
      | node k1 d1 c1 n1 =>
        rw [incr]
        simp only
        obtain ⟨h1, h2⟩ := descend_spec (.node k1 d1 c1 n1) k1 d1 c1 n1 rfl p keys.tail hp'
        rw [ih _ h1, h2]

theorem length_post (pre : List K) (t : T K D) : (post pre t).length = size t := by
  induction t generalizing pre with
  | nil => rfl
  | raw => rfl
  | node k d c n ihc ihn => simp only [post, List.length_append, List.length_cons, ihc, ihn, size]; omega

theorem collect_begin (t : T K D) (f : Nat) (hf : size t ≤ f) : collect f (begin t) = post [] t := by
  cases t with
  | nil => cases f <;> simp [begin, collect, deref, post]
  | raw d => cases f <;> simp [begin, collect, deref, post]
  | node k d c n =>
    obtain ⟨h1, h2⟩ := descend_spec (.node k d c n) k d c n rfl [] [] (by intro x hx; cases hx)
    rw [begin, collect_eq _ _ h1, h2]
    have : rem ([] : List (T K D)) ([] : List K) = [] := rfl
    rw [this, List.append_nil]
    exact List.take_of_length_le (by rw [length_post]; exact hf)

theorem find_key_mem {t : T K D} {k : K} {ks : List K} {d : D} (h : find t (k :: ks) = some d) : k ∈ lvlKeys t := by
  induction t with
  | nil => rw [find_nil] at h; cases h
  | raw => rw [find_raw _ (by simp)] at h; cases h
  | node k0 d0 c n _ ihn =>
    rw [find_node] at h
    split at h
    · rename_i hk; subst hk; exact List.mem_cons_self
    · exact List.mem_cons_of_mem _ (ihn h)

theorem mem_post (pre : List K) (t : T K D) (hw : WF t) (x : List K) (d : D) :
    (x, d) ∈ post pre t ↔ ∃ ks, ks ≠ [] ∧ x = pre.reverse ++ ks ∧ find t ks = some d := by
  induction t generalizing pre x d with
  | nil => simp [post, find_nil]
  | raw => exact absurd hw (by simp [WF])
  | node k0 d0 c n ihc ihn =>
    obtain ⟨h1, h2, h3⟩ := hw
    simp only [post, List.mem_append, List.mem_cons, ihc _ h1, ihn _ h2]
    constructor
    · rintro (⟨ks, a, b, e⟩ | h | ⟨ks, a, b, e⟩)
      · refine ⟨k0 :: ks, by simp, by simp [b], ?_⟩
        rw [find_node, if_pos rfl, if_neg a]; exact e
      · injection h with ha hb
        refine ⟨[k0], by simp, by simp [ha], ?_⟩
        rw [find_node]; simp [hb]
      · cases ks with
        | nil => exact absurd rfl a
        | cons k ks =>
          refine ⟨k :: ks, a, b, ?_⟩
          rw [find_node, if_neg]
          · exact e
          · intro hh; subst hh; exact h3 (find_key_mem e)
    · rintro ⟨ks, a, b, e⟩
      cases ks with
      | nil => exact absurd rfl a
      | cons k ks =>
        rw [find_node] at e
        split at e
        · rename_i hk; subst hk
          split at e
          · rename_i hks; subst hks
            injection e with e
            exact Or.inr (Or.inl (by rw [b, e]; simp))
          · rename_i hks
            exact Or.inl ⟨ks, hks, by rw [b]; simp, e⟩
        · exact Or.inr (Or.inr ⟨k :: ks, a, b, e⟩)

theorem nodup_post (pre : List K) (t : T K D) (hw : WF t) : ((post pre t).map Prod.fst).Nodup := by
  induction t generalizing pre with
  | nil => simp [post]
  | raw => exact absurd hw (by simp [WF])
  | node k0 d0 c n ihc ihn =>
    obtain ⟨h1, h2, h3⟩ := hw
    have hc : ∀ x ∈ (post (k0 :: pre) c).map Prod.fst, ∃ ks, ks ≠ [] ∧ x = pre.reverse ++ k0 :: ks := by
      intro x hx
      obtain ⟨⟨y, d⟩, hy, rfl⟩ := List.mem_map.1 hx
      obtain ⟨ks, a, b, _⟩ := (mem_post _ c h1 y d).1 hy
      exact ⟨ks, a, by simp [b]⟩
    have hn : ∀ x ∈ (post pre n).map Prod.fst, ∃ k ks, k ≠ k0 ∧ x = pre.reverse ++ k :: ks := by
      intro x hx
      obtain ⟨⟨y, d⟩, hy, rfl⟩ := List.mem_map.1 hx
      obtain ⟨ks, a, b, e⟩ := (mem_post _ n h2 y d).1 hy
      cases ks with
      | nil => exact absurd rfl a
      | cons k ks => exact ⟨k, ks, fun hh => h3 (by rw [← hh]; exact find_key_mem e), b⟩
    simp only [post, List.map_append, List.map_cons, List.nodup_append, List.nodup_cons]
    refine ⟨ihc _ h1, ⟨?_, ihn _ h2⟩, ?_⟩
    · intro hm
      obtain ⟨k, ks, a, b⟩ := hn _ hm
      simp at b
      exact a b.1.symm
    · intro x hx y hy hxy
      subst hxy
      obtain ⟨ks, a, b⟩ := hc x hx
      rcases List.mem_cons.1 hy with h | h
      · rw [h] at b; simp at b; exact a b
      · obtain ⟨k, ks', a', b'⟩ := hn x h
        rw [b] at b'; simp at b'; exact a' b'.1.symm

end Thot.Trie
