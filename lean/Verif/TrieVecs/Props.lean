import Verif.TrieVecs.Model
/-!
Property C96: the trie of the n-gram tables is a map from key sequences to data, and iterating over it visits every
stored sequence exactly once.
-/
namespace Thot.TrieVecs

variable {D : Type}

/-! ### Specification -/

/-- Operations on a trie: `insert(ks,d)`, `*find(ks)=f(*find(ks))` when found, `clear()`. -/
inductive Op (D : Type) where
  | ins (ks : List Nat) (d : D)
  | upd (ks : List Nat) (f : D → D)
  | clr

/-- The trie after an operation. -/
def step (dflt : D) (t : T D) : Op D → T D
  | .ins ks d => insert dflt d t ks
  | .upd ks f => modify f t ks
  | .clr => clear t

/-- The trie after a history of operations on an empty trie. -/
def run (dflt : D) (H : List (Op D)) : T D := H.foldl (step dflt) .nil

/-- A partial map from non-empty key sequences. -/
abbrev Map (D : Type) := List Nat → Option D

/-- What every operation does to the map: an insertion sets the sequence and gives default data to the prefixes that are
new; an update changes what is there; `clear` leaves nothing. -/
def specStep (dflt : D) (m : Map D) : Op D → Map D
  | .ins ks d => fun x =>
    if x = ks ∧ x ≠ [] then some d
    else match m x with
      | some v => some v
      | none => if x <+: ks ∧ x ≠ [] then some dflt else none
  | .upd ks f => fun x => if x = ks then (m x).map f else m x
  | .clr => fun _ => none

/-- The map after a history. -/
def spec (dflt : D) (H : List (Op D)) : Map D := H.foldl (specStep dflt) (fun _ => none)

/-! ### Lemmas -/

theorem find_empty (t : T D) : find t [] = none := by cases t <;> rfl

theorem find_nil (ks : List Nat) : find (.nil : T D) ks = none := by cases ks <;> rfl

theorem find_node (k' : Nat) (d : D) (c n : T D) (k : Nat) (ks : List Nat) :
    find (.node k' d c n) (k :: ks) = if k = k' then (if ks = [] then some d else find c ks) else find n (k :: ks) := rfl

/-- Keys at a level. -/
def lvl : T D → List Nat
  | .nil => []
  | .node k _ _ n => k :: lvl n

/-- The vectors of children are sorted by key. -/
def WF : T D → Prop
  | .nil => True
  | .node k _ c n => WF c ∧ WF n ∧ ∀ x ∈ lvl n, k < x

theorem find_key_mem {t : T D} {k : Nat} {ks : List Nat} {d : D} (h : find t (k :: ks) = some d) : k ∈ lvl t := by
  induction t with
  | nil => cases h
  | node k0 d0 c n _ ihn =>
    rw [find_node] at h
    split at h
    · rename_i hk; subst hk; exact List.mem_cons_self
    · exact List.mem_cons_of_mem _ (ihn h)

theorem find_none_of_lvl {t : T D} {k : Nat} {ks : List Nat} (h : k ∉ lvl t) : find t (k :: ks) = none := by
  cases hf : find t (k :: ks) with
  | none => rfl
  | some d => exact absurd (find_key_mem hf) h

theorem find_chain (dflt d : D) (ks : List Nat) (x : List Nat) (hx : x ≠ []) :
    find (chain dflt d ks) x = if x = ks then some d else if x <+: ks then some dflt else none := by
  induction ks generalizing x with
  | nil =>
    have : ¬ x <+: [] := fun h => hx (List.prefix_nil.1 h)
    simp [chain, find_nil, hx]
  | cons k ks ih =>
    obtain ⟨a, r, rfl⟩ := List.exists_cons_of_ne_nil hx
    cases ks with
    | nil =>
      rw [chain, find_node]
      by_cases h : a = k
      · subst h
        cases r with
        | nil => simp
        | cons b r' => simp [find_nil, List.cons_prefix_cons]
      · simp [h, find_nil, List.cons_prefix_cons]
    | cons k2 ks =>
      rw [chain, find_node]
      by_cases h : a = k
      · subst h
        cases r with
        | nil => simp
        | cons b r' =>
          rw [if_pos rfl, if_neg (by simp), ih _ (by simp)]
          simp only [List.cons.injEq, true_and, List.cons_prefix_cons]
      · simp [h, find_nil, List.cons_prefix_cons]

theorem lvl_chain (dflt d : D) (k : Nat) (ks : List Nat) : lvl (chain dflt d (k :: ks)) = [k] := by
  cases ks <;> simp [chain, lvl]

theorem wf_chain (dflt d : D) (ks : List Nat) : WF (chain dflt d ks) := by
  induction ks with
  | nil => trivial
  | cons k ks ih =>
    cases ks with
    | nil => exact ⟨trivial, trivial, by simp [lvl]⟩
    | cons k2 ks => exact ⟨ih, trivial, by simp [lvl]⟩

theorem lvl_insert (dflt d : D) (t : T D) (k : Nat) (ks : List Nat) :
    ∀ x ∈ lvl (insert dflt d t (k :: ks)), x = k ∨ x ∈ lvl t := by
  induction t with
  | nil => intro x hx; rw [insert, lvl_chain] at hx; simp at hx; exact Or.inl hx
  | node k' d' c n _ ihn =>
    intro x hx
    rw [insert] at hx
    split at hx
    · split at hx <;> exact Or.inr hx
    · split at hx
      · rcases List.mem_cons.1 hx with h | h
        · exact Or.inl h
        · exact Or.inr h
      · rcases List.mem_cons.1 hx with h | h
        · exact Or.inr (by rw [h]; exact List.mem_cons_self)
        · rcases ihn x h with h | h
          · exact Or.inl h
          · exact Or.inr (List.mem_cons_of_mem _ h)

theorem wf_insert (dflt d : D) {t : T D} (h : WF t) (ks : List Nat) : WF (insert dflt d t ks) := by
  induction t generalizing ks with
  | nil => cases ks with
    | nil => exact h
    | cons k ks => rw [insert]; exact wf_chain _ _ _
  | node k' d' c n ihc ihn =>
    cases ks with
    | nil => exact h
    | cons k ks =>
      obtain ⟨h1, h2, h3⟩ := h
      rw [insert]
      split
      · split
        · exact ⟨h1, h2, h3⟩
        · exact ⟨ihc h1 ks, h2, h3⟩
      · split
        · rename_i hlt
          refine ⟨wf_chain _ _ _, ⟨h1, h2, h3⟩, ?_⟩
          intro x hx
          rcases List.mem_cons.1 hx with rfl | hx
          · exact hlt
          · exact Nat.lt_trans hlt (h3 x hx)
        · refine ⟨h1, ihn h2 _, ?_⟩
          intro x hx
          rcases lvl_insert dflt d n k ks x hx with rfl | hx
          · omega
          · exact h3 x hx

theorem find_insert (dflt d : D) {t : T D} (h : WF t) (ks x : List Nat) (hx : x ≠ []) :
    find (insert dflt d t ks) x = if x = ks then some d
      else match find t x with
        | some v => some v
        | none => if x <+: ks then some dflt else none := by
  induction t generalizing ks x with
  | nil => cases ks with
    | nil =>
      have : ¬ x <+: [] := fun h => hx (List.prefix_nil.1 h)
      simp [insert, hx, find_nil]
    | cons k ks => rw [insert, find_chain _ _ _ _ hx, find_nil]
  | node k' d' c n ihc ihn =>
    obtain ⟨h1, h2, h3⟩ := h
    obtain ⟨a, r, rfl⟩ := List.exists_cons_of_ne_nil hx
    cases ks with
    | nil => simp only [insert, List.cons_ne_nil, if_false, List.prefix_nil]; cases find (.node k' d' c n) (a :: r) <;> rfl
    | cons k ks =>
      rw [insert]
      by_cases hk : k = k'
      · subst hk
        rw [if_pos rfl]
        by_cases hks : ks = []
        · subst hks
          simp only [if_true, find_node]
          by_cases ha : a = k
          · subst ha
            cases r with
            | nil => simp
            | cons b r' =>
              simp only [if_true, List.cons_ne_nil, if_false, List.cons.injEq, true_and, List.cons_prefix_cons, List.prefix_nil]
              cases find c (b :: r') <;> rfl
          · simp only [ha, if_false, List.cons.injEq, false_and, List.cons_prefix_cons]
            cases find n (a :: r) <;> rfl
        · rw [if_neg hks]
          simp only [find_node]
          by_cases ha : a = k
          · subst ha
            by_cases hr : r = []
            · subst hr
              have : ¬ ([] : List Nat) = ks := fun h => hks h.symm
              simp [this]
            · simp only [if_true, hr, if_false]
              rw [ihc h1 _ _ hr]
              simp only [List.cons.injEq, true_and, List.cons_prefix_cons]
          · simp only [ha, if_false, List.cons.injEq, false_and, List.cons_prefix_cons]
            cases find n (a :: r) <;> rfl
      · rw [if_neg hk]
        by_cases hlt : k < k'
        · rw [if_pos hlt, find_node]
          by_cases ha : a = k
          · subst ha
            rw [find_none_of_lvl (t := .node k' d' c n) (k := a)
              (by intro hm; rcases List.mem_cons.1 hm with h | h
                  · exact hk h
                  · exact absurd (h3 _ h) (by omega))]
            rw [if_pos rfl]
            by_cases hr : r = []
            · subst hr
              by_cases hks : ks = []
              · simp [hks]
              · have : ¬ ([] : List Nat) = ks := fun h => hks h.symm
                simp [hks, this]
            · rw [if_neg hr, find_chain _ _ _ _ hr]
              simp only [List.cons.injEq, true_and, List.cons_prefix_cons]
          · rw [if_neg ha]
            simp only [List.cons.injEq, ha, false_and, if_false, List.cons_prefix_cons]
            cases find (.node k' d' c n) (a :: r) <;> rfl
        · rw [if_neg hlt]
          simp only [find_node]
          by_cases ha : a = k'
          · subst ha
            have hne : ¬ a = k := fun h => hk h.symm
            simp only [if_true, List.cons.injEq, hne, false_and, if_false, List.cons_prefix_cons]
            by_cases hr : r = []
            · simp [hr]
            · simp only [hr, if_false]
              cases find c r <;> rfl
          · simp only [ha, if_false]
            rw [ihn h2 _ _ hx]

theorem lvl_modify (f : D → D) (t : T D) (ks : List Nat) : lvl (modify f t ks) = lvl t := by
  induction t with
  | nil => cases ks <;> rfl
  | node k' d' c n _ ihn =>
    cases ks with
    | nil => rfl
    | cons k ks =>
      rw [modify]
      split
      · split <;> rfl
      · simp only [lvl, ihn]

theorem wf_modify (f : D → D) {t : T D} (h : WF t) (ks : List Nat) : WF (modify f t ks) := by
  induction t generalizing ks with
  | nil => cases ks <;> exact h
  | node k' d' c n ihc ihn =>
    cases ks with
    | nil => exact h
    | cons k ks =>
      obtain ⟨h1, h2, h3⟩ := h
      rw [modify]
      split
      · split
        · exact ⟨h1, h2, h3⟩
        · exact ⟨ihc h1 ks, h2, h3⟩
      · exact ⟨h1, ihn h2 _, by rw [lvl_modify]; exact h3⟩

theorem find_modify (f : D → D) (t : T D) (ks x : List Nat) :
    find (modify f t ks) x = if x = ks then (find t x).map f else find t x := by
  induction t generalizing ks x with
  | nil => cases ks <;> simp [modify, find_nil]
  | node k' d' c n ihc ihn =>
    cases ks with
    | nil =>
      rw [modify]
      split
      · rename_i h; subst h; rfl
      · rfl
    | cons k ks =>
      cases x with
      | nil => simp [find_empty]
      | cons a r =>
        rw [modify]
        by_cases hk : k = k'
        · subst hk
          rw [if_pos rfl]
          by_cases hks : ks = []
          · subst hks
            simp only [if_true, find_node]
            by_cases ha : a = k
            · subst ha
              cases r <;> simp
            · simp [ha]
          · rw [if_neg hks]
            simp only [find_node]
            by_cases ha : a = k
            · subst ha
              by_cases hr : r = []
              · subst hr
                have : ¬ ([] : List Nat) = ks := fun h => hks h.symm
                simp [this]
              · simp only [if_true, hr, if_false, List.cons.injEq, true_and]
                exact ihc ks r
            · simp [ha]
        · rw [if_neg hk]
          simp only [find_node]
          by_cases ha : a = k'
          · subst ha
            have hne : ¬ a = k := fun h => hk h.symm
            simp [hne]
          · simp only [ha, if_false]
            exact ihn _ _

theorem wf_step (dflt : D) {t : T D} (h : WF t) (o : Op D) : WF (step dflt t o) := by
  cases o with
  | ins ks d => exact wf_insert _ _ h _
  | upd ks f => exact wf_modify _ h _
  | clr => trivial

theorem find_step (dflt : D) {t : T D} (h : WF t) (o : Op D) : find (step dflt t o) = specStep dflt (find t) o := by
  funext x
  cases o with
  | ins ks d =>
    simp only [step, specStep]
    by_cases hx : x = []
    · subst hx; simp [find_empty]
    · rw [find_insert dflt d h ks x hx]; simp only [hx, ne_eq, not_false_eq_true, and_true]
  | upd ks f => exact find_modify f t ks x
  | clr => exact find_nil x

theorem run_spec (dflt : D) (H : List (Op D)) : WF (run dflt H) ∧ find (run dflt H) = spec dflt H := by
  unfold run spec
  have : ∀ (t : T D) (m : Map D), WF t → find t = m →
      WF (H.foldl (step dflt) t) ∧ find (H.foldl (step dflt) t) = H.foldl (specStep dflt) m := by
    induction H with
    | nil => intro t m h1 h2; exact ⟨h1, h2⟩
    | cons o H ih =>
      intro t m h1 h2
      exact ih _ _ (wf_step dflt h1 o) (by rw [find_step dflt h1 o, h2])
  exact this .nil _ trivial (funext find_nil)

/-! ### Iteration -/

/-- Post-order listing of the nodes below a vector of children; `pre` is the path so far, deepest first. -/
def post (pre : List Nat) : T D → List (List Nat × D)
  | .nil => []
  | .node k d c n => post (k :: pre) c ++ ((k :: pre).reverse, d) :: post pre n

/-- What an iterator still has to visit after the current node. -/
def after : List (Frame D) → List Nat → List (List Nat × D)
  | [], _ => []
  | g :: p, ks => post ks.tail (next g.pos) ++ (ks.tail.reverse, g.data) :: after p ks.tail

/-- Every level but the deepest stands on a child; the deepest has no child left. -/
def Good (it : Iter D) : Prop :=
  match it.path with
  | [] => True
  | f :: _ => f.pos = .nil

/-- All the visits of an iterator from the current node on. -/
def rem (it : Iter D) : List (List Nat × D) :=
  match it.path with
  | [] => []
  | f :: p => (it.keys.reverse, f.data) :: after p it.keys

theorem descend_spec (t : T D) (d : D) (p : List (Frame D)) (ks : List Nat) :
    Good (descend d t p ks) ∧ rem (descend d t p ks) = post ks t ++ (ks.reverse, d) :: after p ks := by
  induction t generalizing d p ks with
  | nil => exact ⟨rfl, rfl⟩
  | node k d' c n ihc _ =>
    rw [descend]
    obtain ⟨h1, h2⟩ := ihc d' (⟨d, .node k d' c n⟩ :: p) (k :: ks)
    refine ⟨h1, ?_⟩
    rw [h2, post, after]
    simp [next]

theorem enter_spec (d : D) (t : T D) (p : List (Frame D)) (ks : List Nat) :
    Good (enter ⟨⟨d, t⟩ :: p, ks⟩) ∧ rem (enter ⟨⟨d, t⟩ :: p, ks⟩) = post ks t ++ (ks.reverse, d) :: after p ks := by
  cases t with
  | nil => exact ⟨rfl, rfl⟩
  | node k d' c n =>
    obtain ⟨h1, h2⟩ := descend_spec c d' (⟨d, .node k d' c n⟩ :: p) (k :: ks)
    refine ⟨h1, ?_⟩
    rw [enter]
    dsimp only
    rw [h2, post, after]
    simp [next]

theorem incr_spec (it : Iter D) (h : Good it) : Good (incr it) ∧ rem (incr it) = (rem it).tail := by
  obtain ⟨path, keys⟩ := it
  cases path with
  | nil => exact ⟨trivial, rfl⟩
  | cons f p =>
    have hf : f.pos = .nil := h
    cases p with
    | nil =>
      rw [incr]; dsimp only; rw [hf]; exact ⟨trivial, rfl⟩
    | cons g p' =>
      have : incr (⟨f :: g :: p', keys⟩ : Iter D) = enter ⟨⟨g.data, next g.pos⟩ :: p', keys.tail⟩ := by
        rw [incr]; dsimp only; rw [hf]; rfl
      rw [this]
      obtain ⟨h1, h2⟩ := enter_spec g.data (next g.pos) p' keys.tail
      exact ⟨h1, by rw [h2]; simp [rem, after]⟩

theorem collect_eq (f : Nat) (it : Iter D) (h : Good it) : collect f it = (rem it).take f := by
  induction f generalizing it with
  | zero => rfl
  | succ f ih =>
    rw [collect]
    obtain ⟨h1, h2⟩ := incr_spec it h
    rw [ih _ h1, h2]
    obtain ⟨path, keys⟩ := it
    cases path with
    | nil => rfl
    | cons g p => simp [deref, rem]

theorem length_post (pre : List Nat) (t : T D) : (post pre t).length = sizeCh t := by
  induction t generalizing pre with
  | nil => rfl
  | node k d c n ihc ihn => simp only [post, List.length_append, List.length_cons, ihc, ihn, sizeCh]; omega

/-- The listing from `begin` to `end`. -/
theorem collect_begin (d0 : D) (t : T D) (f : Nat) (hf : size t ≤ f) :
    collect f (begin d0 t) = post [] t ++ [([], d0)] := by
  obtain ⟨h1, h2⟩ := descend_spec t d0 [] []
  rw [begin, collect_eq _ _ h1, h2]
  simp only [after, List.reverse_nil]
  refine List.take_of_length_le ?_
  rw [List.length_append, length_post]
  simp only [List.length_cons, List.length_nil]
  unfold size at hf; omega

theorem mem_post (pre : List Nat) (t : T D) (hw : WF t) (x : List Nat) (d : D) :
    (x, d) ∈ post pre t ↔ ∃ ks, x = pre.reverse ++ ks ∧ find t ks = some d := by
  induction t generalizing pre x d with
  | nil => simp [post, find_nil]
  | node k0 d0 c n ihc ihn =>
    obtain ⟨h1, h2, h3⟩ := hw
    simp only [post, List.mem_append, List.mem_cons, ihc _ h1, ihn _ h2]
    constructor
    · rintro (⟨ks, b, e⟩ | h | ⟨ks, b, e⟩)
      · refine ⟨k0 :: ks, by simp [b], ?_⟩
        have : ks ≠ [] := by intro hh; subst hh; rw [find_empty] at e; cases e
        rw [find_node, if_pos rfl, if_neg this]; exact e
      · injection h with ha hb
        refine ⟨[k0], by simp [ha], ?_⟩
        rw [find_node]; simp [hb]
      · cases ks with
        | nil => rw [find_empty] at e; cases e
        | cons k ks =>
          refine ⟨k :: ks, b, ?_⟩
          rw [find_node, if_neg]
          · exact e
          · intro hh; subst hh; exact absurd (h3 _ (find_key_mem e)) (by omega)
    · rintro ⟨ks, b, e⟩
      cases ks with
      | nil => rw [find_empty] at e; cases e
      | cons k ks =>
        rw [find_node] at e
        split at e
        · rename_i hk; subst hk
          split at e
          · rename_i hks; subst hks
            injection e with e
            exact Or.inr (Or.inl (by rw [b, e]; simp))
          · exact Or.inl ⟨ks, by rw [b]; simp, e⟩
        · exact Or.inr (Or.inr ⟨k :: ks, b, e⟩)

theorem nodup_post (pre : List Nat) (t : T D) (hw : WF t) : ((post pre t).map Prod.fst).Nodup := by
  induction t generalizing pre with
  | nil => simp [post]
  | node k0 d0 c n ihc ihn =>
    obtain ⟨h1, h2, h3⟩ := hw
    have hc : ∀ x ∈ (post (k0 :: pre) c).map Prod.fst, ∃ ks, ks ≠ [] ∧ x = pre.reverse ++ k0 :: ks := by
      intro x hx
      obtain ⟨⟨y, d⟩, hy, rfl⟩ := List.mem_map.1 hx
      obtain ⟨ks, b, e⟩ := (mem_post _ c h1 y d).1 hy
      exact ⟨ks, (by intro hh; subst hh; rw [find_empty] at e; cases e), by simp [b]⟩
    have hn : ∀ x ∈ (post pre n).map Prod.fst, ∃ k ks, k ≠ k0 ∧ x = pre.reverse ++ k :: ks := by
      intro x hx
      obtain ⟨⟨y, d⟩, hy, rfl⟩ := List.mem_map.1 hx
      obtain ⟨ks, b, e⟩ := (mem_post _ n h2 y d).1 hy
      cases ks with
      | nil => rw [find_empty] at e; cases e
      | cons k ks => exact ⟨k, ks, fun hh => absurd (h3 _ (find_key_mem e)) (by omega), b⟩
    simp only [post, List.map_append, List.map_cons, List.nodup_append, List.nodup_cons]
    refine ⟨ihc _ h1, ⟨?_, ihn _ h2⟩, ?_⟩
    · intro hm
      obtain ⟨k, ks, a, b⟩ := hn _ hm
      simp at b
      exact a b.1.symm
    · intro x hx y hy hxy
      subst hxy
      obtain ⟨ks, a, b⟩ := hc x hx
      rcases List.mem_cons.1 hy with h | h
      · rw [h] at b; simp at b; exact a b
      · obtain ⟨k, ks', a', b'⟩ := hn x h
        rw [b] at b'; simp at b'; exact a' b'.1.symm

/-! ### C96 -/

/-- C96: after any history of insertions, updates and clears, `find` answers as the map of the specification. -/
theorem C96_map (dflt : D) (H : List (Op D)) (ks : List Nat) : find (run dflt H) ks = spec dflt H ks := by
  rw [(run_spec dflt H).2]

/-- C96: iterating from `begin()` to `end()` visits every sequence stored (prefixes included) exactly once with its data,
and the empty sequence once, in `size()` steps. -/
theorem C96_iterate (dflt d0 : D) (H : List (Op D)) (fuel : Nat) (hf : size (run dflt H) ≤ fuel) :
    (collect fuel (begin d0 (run dflt H))).length = size (run dflt H) ∧
    ((collect fuel (begin d0 (run dflt H))).map Prod.fst).Nodup ∧
    ∀ ks d, (ks, d) ∈ collect fuel (begin d0 (run dflt H)) ↔
      (ks = [] ∧ d = d0) ∨ spec dflt H ks = some d := by
  obtain ⟨h1, h2⟩ := run_spec dflt H
  rw [collect_begin _ _ _ hf, ← h2]
  refine ⟨?_, ?_, ?_⟩
  · rw [List.length_append, length_post]; unfold size; simp; omega
  · rw [List.map_append, List.nodup_append]
    refine ⟨nodup_post _ _ h1, by simp, ?_⟩
    intro x hx y hy
    simp only [List.map_cons, List.map_nil, List.mem_singleton] at hy
    subst hy
    intro hh; subst hh
    obtain ⟨⟨z, d⟩, hz, hz'⟩ := List.mem_map.1 hx
    obtain ⟨ks, b, e⟩ := (mem_post _ _ h1 z d).1 hz
    simp only at hz'
    rw [hz'] at b
    simp at b
    subst b
    rw [find_empty] at e; cases e
  · intro ks d
    rw [List.mem_append, mem_post _ _ h1]
    simp only [List.reverse_nil, List.nil_append, exists_eq_left', List.mem_singleton, Prod.mk.injEq]
    exact Or.comm

/-- C96: a sequence comes after all its extensions (so that a longer n-gram is printed before the shorter one). -/
theorem C96_order (dflt d0 : D) (H : List (Op D)) (fuel : Nat) (hf : size (run dflt H) ≤ fuel) (i j : Nat)
    (x y : List Nat × D) (hi : (collect fuel (begin d0 (run dflt H)))[i]? = some x)
    (hj : (collect fuel (begin d0 (run dflt H)))[j]? = some y) (hxy : x.1 <+: y.1) : j ≤ i := by
  obtain ⟨h1, _⟩ := run_spec dflt H
  rw [collect_begin _ _ _ hf] at hi hj
  have key : ∀ (t : T D) (pre : List Nat), WF t →
      (post pre t).Pairwise (fun a b => ¬ a.1 <+: b.1) := by
    intro t
    induction t with
    | nil => intro pre _; simp [post]
    | node k d c n ihc ihn =>
      intro pre hw
      obtain ⟨w1, w2, w3⟩ := hw
      rw [post, List.pairwise_append, List.pairwise_cons]
      have hn : ∀ b ∈ post pre n, ∃ k' r, k' ≠ k ∧ b.1 = pre.reverse ++ k' :: r := by
        intro b hb
        obtain ⟨ks, e, he⟩ := (mem_post _ n w2 b.1 b.2).1 hb
        cases ks with
        | nil => rw [find_empty] at he; cases he
        | cons k' r => exact ⟨k', r, fun hh => absurd (w3 _ (find_key_mem he)) (by omega), e⟩
      have hdis : ∀ (l : List Nat) (b : List Nat × D), b ∈ post pre n → ¬ (pre.reverse ++ k :: l) <+: b.1 := by
        intro l b hb hp
        obtain ⟨k', r, hne, e⟩ := hn b hb
        rw [e, List.prefix_append_right_inj, List.cons_prefix_cons] at hp
        exact hne hp.1.symm
      refine ⟨ihc _ w1, ⟨?_, ihn _ w2⟩, ?_⟩
      · intro b hb hp
        exact hdis [] b hb (by simpa using hp)
      · intro a ha b hb hp
        obtain ⟨ks, e, he⟩ := (mem_post _ c w1 a.1 a.2).1 ha
        have e' : a.1 = pre.reverse ++ k :: ks := by rw [e]; simp
        rcases List.mem_cons.1 hb with h | h
        · rw [h, e'] at hp
          have := hp.length_le
          simp at this
          rw [this, find_empty] at he; cases he
        · rw [e'] at hp; exact hdis ks b h hp
  have hp : (post [] (run dflt H) ++ [([], d0)]).Pairwise (fun (a b : List Nat × D) => ¬ a.1 <+: b.1) := by
    rw [List.pairwise_append]
    refine ⟨key _ _ h1, by simp, ?_⟩
    intro a ha b hb hpre
    simp only [List.mem_singleton] at hb
    subst hb
    have h0 := List.prefix_nil.1 hpre
    obtain ⟨ks, e, he⟩ := (mem_post _ _ h1 a.1 a.2).1 ha
    rw [h0] at e
    simp at e
    subst e
    rw [find_empty] at he; cases he
  rcases Nat.lt_or_ge i j with hlt | hge
  · obtain ⟨hi', rfl⟩ := List.getElem?_eq_some_iff.1 hi
    obtain ⟨hj', rfl⟩ := List.getElem?_eq_some_iff.1 hj
    exact absurd hxy (List.pairwise_iff_getElem.1 hp i j hi' hj' hlt)
  · exact hge

example : let t := run 0 [.ins [5, 2] 7, .ins [1, 3] 6, .upd [5] (· + 4), .ins [5] 1, .upd [5, 2] (· * 2)]
    find t [5, 2] = some 14 ∧ find t [1] = some 0 ∧ find t [2] = none ∧ size t = 5 ∧
    collect 5 (begin 0 t) = [([1, 3], 6), ([1], 0), ([5, 2], 14), ([5], 1), ([], 0)] := by decide

end Thot.TrieVecs
