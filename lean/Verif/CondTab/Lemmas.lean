import Verif.CondTab.Model
import Verif.Common.Sum
/-! Lemmas on the table and on the encoder. -/
namespace Thot.CondTab

open Thot Thot.AMap

variable {S T : Type} [DecidableEq S] [DecidableEq T]

/-! ### Lookups after each operation -/

theorem getSrcInfo_addSrcInfo (m : Tab S T) (s : S) (c : Nat) (s' : S) :
    getSrcInfo (addSrcInfo m s c) s' = if s' = s then some c else getSrcInfo m s' := by
  simp only [getSrcInfo, addSrcInfo, lk_put]

theorem getSrcTrgInfo_addSrcInfo (m : Tab S T) (s : S) (c : Nat) (s' : S) (t' : T) :
    getSrcTrgInfo (addSrcInfo m s c) s' t' = getSrcTrgInfo m s' t' := rfl

theorem getSrcInfo_addSrcTrgInfo (m : Tab S T) (s : S) (t : T) (c : Nat) (s' : S) :
    getSrcInfo (addSrcTrgInfo m s t c) s' = getSrcInfo m s' := by
  simp only [getSrcInfo, addSrcTrgInfo]; split <;> rfl

theorem getSrcTrgInfo_addSrcTrgInfo (m : Tab S T) (s : S) (t : T) (c : Nat) (s' : S) (t' : T) :
    getSrcTrgInfo (addSrcTrgInfo m s t c) s' t' = if s' = s ∧ t' = t then some c else getSrcTrgInfo m s' t' := by
  simp only [getSrcTrgInfo, addSrcTrgInfo]
  cases hl : lk m.tbl t with
  | none =>
    simp only [lk_put]
    by_cases ht : t' = t
    · subst ht
      by_cases hs : s' = s
      · subst hs; simp [lk]
      · simp [lk, hs, hl, Ne.symm (show s' ≠ s from hs)]
    · simp [ht]
  | some node =>
    simp only [lk_put]
    by_cases ht : t' = t
    · subst ht
      by_cases hs : s' = s
      · subst hs; simp [lk_put]
      · simp [lk_put, hs, hl]
    · simp [ht]

theorem getSrcInfo_incr (m : Tab S T) (s : S) (t : T) (c : Nat) (s' : S) :
    getSrcInfo (incrCountsOfEntry m s t c) s' =
      if s' = s then some ((getSrcInfo m s).getD 0 + c) else getSrcInfo m s' := by
  have h : ∀ s', lk (incrSrc m.src s c) s' = if s' = s then some ((lk m.src s).getD 0 + c) else lk m.src s' := by
    intro s'
    unfold incrSrc
    cases lk m.src s <;> simp [lk_put]
  simp only [getSrcInfo, incrCountsOfEntry]
  split
  · exact h s'
  · split <;> exact h s'

theorem getSrcTrgInfo_incr (m : Tab S T) (s : S) (t : T) (c : Nat) (s' : S) (t' : T) :
    getSrcTrgInfo (incrCountsOfEntry m s t c) s' t' =
      if s' = s ∧ t' = t then some ((getSrcTrgInfo m s t).getD 0 + c) else getSrcTrgInfo m s' t' := by
  simp only [getSrcTrgInfo, incrCountsOfEntry]
  cases hl : lk m.tbl t with
  | none =>
    simp only [lk_put]
    by_cases ht : t' = t
    · subst ht
      by_cases hs : s' = s
      · subst hs; simp [lk]
      · simp [lk, hs, hl, Ne.symm (show s' ≠ s from hs)]
    · simp [ht]
  | some node =>
    dsimp only
    cases hn : lk node s with
    | none =>
      simp only [lk_put]
      by_cases ht : t' = t
      · subst ht
        by_cases hs : s' = s
        · subst hs; simp [lk_put]
        · simp [lk_put, hs, hl]
      · simp [ht]
    | some x =>
      simp only [lk_put]
      by_cases ht : t' = t
      · subst ht
        by_cases hs : s' = s
        · subst hs; simp [lk_put]
        · simp [lk_put, hs, hl]
      · simp [ht]

/-! ### Well-formed tables -/

/-- The keys of the maps are distinct. -/
structure Wf (m : Tab S T) : Prop where
  tbl : Distinct m.tbl
  src : Distinct m.src
  node : ∀ e ∈ m.tbl, Distinct e.2

theorem wf_new : Wf (Tab.new : Tab S T) := ⟨distinct_nil, distinct_nil, by simp [Tab.new]⟩

theorem nodes_put {tbl : List (T × List (S × Nat))} (hd : Distinct tbl) (h : ∀ e ∈ tbl, Distinct e.2) (t : T)
    {node : List (S × Nat)} (hn : Distinct node) : ∀ e ∈ put tbl t node, Distinct e.2 := by
  intro e he
  have h1 : lk (put tbl t node) e.1 = some e.2 := (lk_some_iff (distinct_put hd t node)).2 he
  rw [lk_put] at h1
  split at h1
  · cases h1; exact hn
  · exact h (e.1, e.2) ((lk_some_iff hd).1 h1)

theorem distinct_single (s : S) (c : Nat) : Distinct [(s, c)] := by simp [Distinct]

theorem node_of {m : Tab S T} (h : Wf m) {t : T} {node : List (S × Nat)} (hl : lk m.tbl t = some node) :
    Distinct node := h.node (t, node) ((lk_some_iff h.tbl).1 hl)

theorem wf_addSrcInfo {m : Tab S T} (h : Wf m) (s : S) (c : Nat) : Wf (addSrcInfo m s c) :=
  ⟨h.tbl, distinct_put h.src _ _, h.node⟩

theorem wf_addSrcTrgInfo {m : Tab S T} (h : Wf m) (s : S) (t : T) (c : Nat) : Wf (addSrcTrgInfo m s t c) := by
  unfold addSrcTrgInfo
  split <;> rename_i hl
  · exact ⟨distinct_put h.tbl _ _, h.src, nodes_put h.tbl h.node _ (distinct_put (node_of h hl) _ _)⟩
  · exact ⟨distinct_put h.tbl _ _, h.src, nodes_put h.tbl h.node _ (distinct_single _ _)⟩

theorem wf_incr {m : Tab S T} (h : Wf m) (s : S) (t : T) (c : Nat) : Wf (incrCountsOfEntry m s t c) := by
  have hs : Distinct (incrSrc m.src s c) := by
    unfold incrSrc; split <;> exact distinct_put h.src _ _
  unfold incrCountsOfEntry
  dsimp only
  split <;> rename_i hl
  · exact ⟨distinct_put h.tbl _ _, hs, nodes_put h.tbl h.node _ (distinct_single _ _)⟩
  · split
    · exact ⟨distinct_put h.tbl _ _, hs, nodes_put h.tbl h.node _ (distinct_put (node_of h hl) _ _)⟩
    · exact ⟨distinct_put h.tbl _ _, hs, nodes_put h.tbl h.node _ (distinct_put (node_of h hl) _ _)⟩

/-! ### The entries of a target and of a source -/

theorem entriesLoop_some {src : List (S × Nat)} : ∀ {node : List (S × Nat)} {acc : List (S × Nat × Nat)},
    Distinct node → (∀ e ∈ node, (lk src e.1).isSome) →
    ∃ r, entriesLoop src node acc = some r ∧ ∀ s, lk r s =
      match lk node s with
      | some cst => (lk src s).map (fun cs => (cs, cst))
      | none => lk acc s := by
  intro node
  induction node with
  | nil => intro acc _ _; exact ⟨acc, rfl, fun s => rfl⟩
  | cons e r ih =>
    intro acc hd hs
    obtain ⟨h1, h2⟩ := List.nodup_cons.1 hd
    obtain ⟨cs, hcs⟩ := Option.isSome_iff_exists.1 (hs e List.mem_cons_self)
    obtain ⟨res, hr, hlk⟩ := ih (acc := put acc e.1 (cs, e.2)) h2 (fun x hx => hs x (List.mem_cons_of_mem _ hx))
    refine ⟨res, by simp only [entriesLoop, hcs, hr], ?_⟩
    intro s
    rw [hlk s]
    by_cases he : e.1 = s
    · have : lk r s = none := lk_none_iff.2 (by rw [← he]; exact h1)
      simp only [this, lk, he, if_true, lk_put_self]
      rw [← he, hcs]; rfl
    · simp only [lk, he, if_false]
      cases lk r s with
      | none => rw [lk_put_ne _ _ (fun h => he h.symm)]
      | some c => rfl

theorem entriesLoop_distinct {src : List (S × Nat)} : ∀ {node : List (S × Nat)} {acc r : List (S × Nat × Nat)},
    Distinct acc → entriesLoop src node acc = some r → Distinct r := by
  intro node
  induction node with
  | nil => intro acc r hd h; cases h; exact hd
  | cons e n ih =>
    intro acc r hd h
    simp only [entriesLoop] at h
    split at h
    · exact ih (distinct_put hd _ _) h
    · cases h

theorem entriesSrcLoop_some {src : List (S × Nat)} {s : S} (hs : (lk src s).isSome ) :
    ∀ {tbl : List (T × List (S × Nat))} {ret : Bool} {acc : List (T × Nat × Nat)}, Distinct tbl →
    ∃ r, entriesSrcLoop src s tbl ret acc = some (ret || tbl.any (fun e => (lk e.2 s).isSome), r) ∧ ∀ t, lk r t =
      match (lk tbl t).bind (fun node => lk node s) with
      | some cst => (lk src s).map (fun cs => (cs, cst))
      | none => lk acc t := by
  obtain ⟨cs, hcs⟩ := Option.isSome_iff_exists.1 hs
  intro tbl
  induction tbl with
  | nil => intro ret acc _; exact ⟨acc, by simp [entriesSrcLoop], fun t => rfl⟩
  | cons e r ih =>
    intro ret acc hd
    obtain ⟨h1, h2⟩ := List.nodup_cons.1 hd
    cases hl : lk e.2 s with
    | none =>
      obtain ⟨res, hr, hlk⟩ := ih (ret := ret) (acc := acc) h2
      refine ⟨res, by simp only [entriesSrcLoop, hl, hr]; simp [hl], ?_⟩
      intro t
      rw [hlk t]
      by_cases he : e.1 = t
      · have : lk r t = none := lk_none_iff.2 (by rw [← he]; exact h1)
        simp [this, lk, he, hl]
      · simp [lk, he]
    | some cst =>
      obtain ⟨res, hr, hlk⟩ := ih (ret := true) (acc := put acc e.1 (cs, cst)) h2
      refine ⟨res, by simp only [entriesSrcLoop, hl, hcs, hr]; simp [hl], ?_⟩
      intro t
      rw [hlk t]
      by_cases he : e.1 = t
      · have : lk r t = none := lk_none_iff.2 (by rw [← he]; exact h1)
        simp [this, lk, he, hl, hcs]
      · simp only [lk, he, if_false]
        cases hb : (lk r t).bind (fun node => lk node s) with
        | none => simp only []; rw [lk_put_ne _ _ (fun h => he h.symm)]
        | some c => rfl

theorem entriesSrcLoop_absent {src : List (S × Nat)} {s : S} :
    ∀ {tbl : List (T × List (S × Nat))} {ret : Bool} {acc : List (T × Nat × Nat)},
    (∀ e ∈ tbl, lk e.2 s = none) → entriesSrcLoop src s tbl ret acc = some (ret, acc) := by
  intro tbl
  induction tbl with
  | nil => intro ret acc _; rfl
  | cons e r ih =>
    intro ret acc h
    simp only [entriesSrcLoop, h e List.mem_cons_self]
    exact ih (fun x hx => h x (List.mem_cons_of_mem _ hx))

theorem entriesSrcLoop_distinct {src : List (S × Nat)} {s : S} :
    ∀ {tbl : List (T × List (S × Nat))} {ret b : Bool} {acc r : List (T × Nat × Nat)}, Distinct acc →
    entriesSrcLoop src s tbl ret acc = some (b, r) → Distinct r := by
  intro tbl
  induction tbl with
  | nil => intro ret b acc r hd h; cases h; exact hd
  | cons e n ih =>
    intro ret b acc r hd h
    simp only [entriesSrcLoop] at h
    split at h
    · split at h
      · exact ih (distinct_put hd _ _) h
      · cases h
    · exact ih hd h

/-! ### Sums of counts -/

theorem foldl_add (l : List (S × Nat)) (a : Nat) : l.foldl (fun a e => a + e.2) a = a + l.foldl (fun a e => a + e.2) 0 := by
  induction l generalizing a with
  | nil => rfl
  | cons e r ih => simp only [List.foldl_cons]; rw [ih, ih (0 + e.2)]; omega

theorem sum_put (l : List (S × Nat)) (s : S) (c : Nat) :
    (put l s c).foldl (fun a e => a + e.2) 0 + (lk l s).getD 0 = l.foldl (fun a e => a + e.2) 0 + c := by
  induction l with
  | nil => simp [put, lk]
  | cons e r ih =>
    by_cases h : e.1 = s
    · simp only [put, lk, h, if_true, List.foldl_cons]
      rw [foldl_add r (0 + c), foldl_add r (0 + e.2)]
      simp only [Option.getD_some]; omega
    · simp only [put, lk, h, if_false, List.foldl_cons]
      rw [foldl_add (put r s c), foldl_add r (0 + e.2)]; omega

theorem lcTrg_incr (m : Tab S T) (s : S) (t : T) (c : Nat) (t' : T) :
    lcTrg (incrCountsOfEntry m s t c) t' = lcTrg m t' + if t' = t then c else 0 := by
  simp only [lcTrg, incrCountsOfEntry]
  cases hl : lk m.tbl t with
  | none =>
    simp only [lk_put]
    by_cases ht : t' = t
    · subst ht; simp [hl]
    · simp [ht]
  | some node =>
    dsimp only
    have hp := sum_put node s
    cases hn : lk node s with
    | none =>
      simp only [lk_put]
      by_cases ht : t' = t
      · subst ht
        have := hp c
        rw [hn] at this
        simp only [Option.getD_none] at this
        simp only [if_true, hl]; omega
      · simp [ht]
    | some x =>
      simp only [lk_put]
      by_cases ht : t' = t
      · subst ht
        have := hp (x + c)
        rw [hn] at this
        simp only [Option.getD_some] at this
        simp only [if_true, hl]; omega
      · simp [ht]

/-! ### The encoder -/

variable {H : Type} [DecidableEq H]

/-- Codes are distinct, positive, and at most the counter. -/
structure EncInv (e : Enc H) : Prop where
  keys : Distinct e.map
  codes : (e.map.map Prod.snd).Nodup
  bound : ∀ p ∈ e.map, 1 ≤ p.2 ∧ p.2 ≤ e.last

theorem encInv_new : EncInv (Enc.new : Enc H) := ⟨distinct_nil, List.nodup_nil, by simp [Enc.new]⟩

theorem addCode_of_some {e : Enc H} {h : H} {c : Nat} (hl : lk e.map h = some c) : e.addCode h = (e, c) := by
  simp only [Enc.addCode, Enc.code, hl]

theorem addCode_of_none {e : Enc H} {h : H} (hl : lk e.map h = none) :
    e.addCode h = (⟨e.map ++ [(h, e.last + 1)], e.last + 1⟩, e.last + 1) := by
  simp only [Enc.addCode, Enc.code, hl, Enc.gen, Enc.add]
  rw [put_of_none _ hl]

theorem encInv_addCode {e : Enc H} (hi : EncInv e) (h : H) : EncInv (e.addCode h).1 := by
  cases hl : lk e.map h with
  | some c => rw [addCode_of_some hl]; exact hi
  | none =>
    rw [addCode_of_none hl]
    refine ⟨by have := distinct_put hi.keys h (e.last + 1); rwa [put_of_none _ hl] at this, ?_, ?_⟩
    · simp only [List.map_append, List.map_cons, List.map_nil]
      rw [List.nodup_append]
      refine ⟨hi.codes, by simp, ?_⟩
      intro a ha b hb
      simp only [List.mem_singleton] at hb
      obtain ⟨p, hp, rfl⟩ := List.mem_map.1 ha
      have := hi.bound p hp; omega
    · intro p hp
      rcases List.mem_append.1 hp with hp | hp
      · have := hi.bound p hp; dsimp only; omega
      · simp only [List.mem_singleton] at hp; subst hp; dsimp only; omega

theorem lk_addCode (e : Enc H) (h h' : H) :
    lk (e.addCode h).1.map h' = if h' = h then some (e.addCode h).2 else lk e.map h' := by
  cases hl : lk e.map h with
  | some c =>
    rw [addCode_of_some hl]
    by_cases he : h' = h
    · subst he; simp [hl]
    · simp [he]
  | none =>
    rw [addCode_of_none hl]
    have := lk_put e.map h (e.last + 1) h'
    rwa [put_of_none _ hl] at this

theorem last_addCode (e : Enc H) (h : H) : e.last ≤ (e.addCode h).1.last := by
  cases hl : lk e.map h with
  | some c => rw [addCode_of_some hl]; exact Nat.le_refl _
  | none => rw [addCode_of_none hl]; exact Nat.le_succ _

theorem lk_inj {l : List (H × Nat)} (hc : (l.map Prod.snd).Nodup) (hd : Distinct l) {h h' : H} {c : Nat}
    (h1 : lk l h = some c) (h2 : lk l h' = some c) : h = h' := by
  have m1 := (lk_some_iff hd).1 h1
  have m2 := (lk_some_iff hd).1 h2
  clear h1 h2
  induction l with
  | nil => cases m1
  | cons e r ih =>
    obtain ⟨n1, n2⟩ := List.nodup_cons.1 hc
    have hd' : Distinct r := (List.nodup_cons.1 hd).2
    rcases List.mem_cons.1 m1 with e1 | m1 <;> rcases List.mem_cons.1 m2 with e2 | m2
    · rw [← e1] at e2; cases e2; rfl
    · exact absurd (List.mem_map_of_mem (f := Prod.snd) m2) (by rw [← e1] at n1; exact n1)
    · exact absurd (List.mem_map_of_mem (f := Prod.snd) m1) (by rw [← e2] at n1; exact n1)
    · exact ih n2 hd' m1 m2

theorem findCode_iff {l : List (H × Nat)} (hc : (l.map Prod.snd).Nodup) (hd : Distinct l) {h : H} {c : Nat} :
    findCode c l = some h ↔ lk l h = some c := by
  have key : ∀ {l : List (H × Nat)} {h : H}, findCode c l = some h → (h, c) ∈ l := by
    intro l
    induction l with
    | nil => intro h he; cases he
    | cons e r ih =>
      intro h he
      rw [findCode] at he
      split at he <;> rename_i hcc
      · cases he; rw [← hcc]; exact List.mem_cons_self
      · exact List.mem_cons_of_mem _ (ih he)
  constructor
  · intro he; exact (lk_some_iff hd).2 (key he)
  · intro he
    have : ∃ h', findCode c l = some h' := by
      have hm := (lk_some_iff hd).1 he
      clear he hd hc key
      induction l with
      | nil => cases hm
      | cons e r ih =>
        rw [findCode]
        split
        · exact ⟨_, rfl⟩
        · rename_i hn
          rcases List.mem_cons.1 hm with e1 | hm
          · exact absurd (by rw [← e1]) hn
          · exact ih hm
    obtain ⟨h', hh⟩ := this
    rw [hh, lk_inj hc hd ((lk_some_iff hd).2 (key hh)) he]

end Thot.CondTab
