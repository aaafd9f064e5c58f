import Verif.LexMerge.Prune
import Verif.Common.AMap
/-!
C136: the table of lexical parameters in memory. Model of `sw_models/IncrLexTable.cc`; the ordered vectors of `lexNumer` are
association lists (the ordered vector is verified in component `OrdVec`); values are exact.
-/
namespace Thot.LexMerge

open Thot Thot.Sum

/-- The members of `IncrLexTable` (IncrLexTable.h:115-124). -/
structure Lex where
  numer : List (List (Nat × Rat))
  denom : List (Bool × Rat)

def Lex.empty : Lex := ⟨[], []⟩

/-- Growing a vector up to position `i`. -/
def grow {A : Type} (l : List A) (i : Nat) (z : A) : List A := l ++ List.replicate (i + 1 - l.length) z

/-- `setLexNumer` (IncrLexTable.cc:37-50). -/
def Lex.setNumer (x : Lex) (s t : Nat) (f : Rat) : Lex :=
  { x with numer := (grow x.numer t []).set t (AMap.put ((grow x.numer t []).getD t []) s f) }

/-- `getLexNumer` (IncrLexTable.cc:53-82): `none` when not found. -/
def Lex.getNumer (x : Lex) (s t : Nat) : Option Rat :=
  if t ≥ x.numer.length then none else AMap.lk (x.numer.getD t []) s

/-- `setLexDenom` (IncrLexTable.cc:85-91). -/
def Lex.setDenom (x : Lex) (s : Nat) (d : Rat) : Lex :=
  { x with denom := (grow x.denom s (false, 0)).set s (true, d) }

/-- `getLexDenom` (IncrLexTable.cc:94-107): the value of `found` and the result. -/
def Lex.getDenom (x : Lex) (s : Nat) : Bool × Rat := if x.denom.length > s then x.denom.getD s (false, 0) else (false, 0)

/-- `getTransForTarget` (IncrLexTable.cc:110-128): `none` when it returns false. -/
def Lex.transForTarget (x : Lex) (t : Nat) : Option (List Nat) :=
  if t ≥ x.numer.length then none else some ((x.numer.getD t []).map Prod.fst)

/-- `setLexNumDen` (IncrLexTable.cc:131-138). -/
def Lex.setNumDen (x : Lex) (s t : Nat) (n d : Rat) : Lex := (x.setDenom s d).setNumer s t n

/-- `printBin` (IncrLexTable.cc:223-249): the records of the file. -/
def Lex.print (x : Lex) : List (Rec Nat Nat) :=
  (List.range x.numer.length).flatMap fun t => (x.numer.getD t []).map fun e => ⟨e.1, t, e.2, (x.getDenom e.1).2⟩

/-- `loadBin` (IncrLexTable.cc:151-186): the table is cleared and the records set one by one. -/
def Lex.load (l : List (Rec Nat Nat)) : Lex := l.foldl (fun x r => x.setNumDen r.s r.t r.num r.den) Lex.empty

/-! ### Specification -/

/-- The calls that change the table. -/
inductive Op where
  | numer (s t : Nat) (f : Rat)
  | denom (s : Nat) (d : Rat)
  | both (s t : Nat) (n d : Rat)
  | clear

def Lex.apply (x : Lex) : Op → Lex
  | .numer s t f => x.setNumer s t f
  | .denom s d => x.setDenom s d
  | .both s t n d => x.setNumDen s t n d
  | .clear => Lex.empty

/-- The numerator given to a pair last, since the last `clear`; calls in reverse order. -/
def lastNum (s t : Nat) : List Op → Option Rat
  | [] => none
  | .numer s' t' f :: l => if s' = s ∧ t' = t then some f else lastNum s t l
  | .both s' t' n _ :: l => if s' = s ∧ t' = t then some n else lastNum s t l
  | .denom _ _ :: l => lastNum s t l
  | .clear :: _ => none

/-- The denominator given to a source last. -/
def lastDen (s : Nat) : List Op → Option Rat
  | [] => none
  | .denom s' d :: l => if s' = s then some d else lastDen s l
  | .both s' _ _ d :: l => if s' = s then some d else lastDen s l
  | .numer _ _ _ :: l => lastDen s l
  | .clear :: _ => none

/-! ### Lemmas -/

theorem getD_grow {A : Type} (l : List A) (i : Nat) (z : A) (j : Nat) : (grow l i z).getD j z = l.getD j z := by
  unfold grow
  rw [List.getD_eq_getElem?_getD, List.getD_eq_getElem?_getD]
  by_cases h : j < l.length
  · rw [List.getElem?_append_left h]
  · rw [List.getElem?_append_right (by omega), List.getElem?_eq_none (l := l) (by omega), List.getElem?_replicate]
    split <;> rfl

theorem length_grow {A : Type} (l : List A) (i : Nat) (z : A) : (grow l i z).length = max l.length (i + 1) := by
  unfold grow; rw [List.length_append, List.length_replicate]; omega

theorem getD_grow_set {A : Type} (l : List A) (i : Nat) (z v : A) (j : Nat) :
    ((grow l i z).set i v).getD j z = if j = i then v else l.getD j z := by
  rw [List.getD_eq_getElem?_getD, List.getElem?_set]
  by_cases h : i = j
  · subst h
    rw [if_pos rfl, if_pos rfl, if_pos (by rw [length_grow]; omega)]
    rfl
  · rw [if_neg h, if_neg (fun e => h e.symm), ← List.getD_eq_getElem?_getD, getD_grow]

theorem getNumer_eq (x : Lex) (s t : Nat) : x.getNumer s t = AMap.lk (x.numer.getD t []) s := by
  unfold Lex.getNumer
  split
  · rw [List.getD_eq_getElem?_getD, List.getElem?_eq_none (by omega)]; rfl
  · rfl

theorem getDenom_eq (x : Lex) (s : Nat) : x.getDenom s = x.denom.getD s (false, 0) := by
  unfold Lex.getDenom
  split
  · rfl
  · rw [List.getD_eq_getElem?_getD, List.getElem?_eq_none (by omega)]; rfl

theorem getNumer_setNumer (x : Lex) (s t : Nat) (f : Rat) (s' t' : Nat) :
    (x.setNumer s t f).getNumer s' t' = if s = s' ∧ t = t' then some f else x.getNumer s' t' := by
  rw [getNumer_eq, getNumer_eq]
  unfold Lex.setNumer
  dsimp only
  rw [getD_grow_set, getD_grow]
  by_cases ht : t' = t
  · subst ht
    rw [if_pos rfl]
    by_cases hs : s' = s
    · subst hs; rw [AMap.lk_put_self, if_pos ⟨rfl, rfl⟩]
    · rw [AMap.lk_put_ne _ _ hs, if_neg (fun h => hs h.1.symm)]
  · rw [if_neg ht, if_neg (fun h => ht h.2.symm)]

theorem getDenom_setDenom (x : Lex) (s : Nat) (d : Rat) (s' : Nat) :
    (x.setDenom s d).getDenom s' = if s = s' then (true, d) else x.getDenom s' := by
  rw [getDenom_eq, getDenom_eq]
  unfold Lex.setDenom
  dsimp only
  rw [getD_grow_set]
  by_cases h : s = s'
  · rw [if_pos h.symm, if_pos h]
  · rw [if_neg (fun e => h e.symm), if_neg h]

theorem getDenom_setNumer (x : Lex) (s t : Nat) (f : Rat) (s' : Nat) : (x.setNumer s t f).getDenom s' = x.getDenom s' := rfl
theorem getNumer_setDenom (x : Lex) (s : Nat) (d : Rat) (s' t' : Nat) : (x.setDenom s d).getNumer s' t' = x.getNumer s' t' := rfl

/-- Value and flag for an optional value. -/
def flagged : Option Rat → Bool × Rat
  | some d => (true, d)
  | none => (false, 0)

theorem hist_spec (ops : List Op) : ∀ s t,
    ((ops.foldr (fun o x => Lex.apply x o) Lex.empty).getNumer s t = lastNum s t ops) ∧
    ((ops.foldr (fun o x => Lex.apply x o) Lex.empty).getDenom s = flagged (lastDen s ops)) := by
  induction ops with
  | nil => intro s t; exact ⟨rfl, rfl⟩
  | cons o ops ih =>
    intro s t
    obtain ⟨i1, i2⟩ := ih s t
    rw [List.foldr_cons]
    generalize ops.foldr (fun o x => Lex.apply x o) Lex.empty = y at i1 i2 ⊢
    cases o with
    | numer s' t' f =>
      refine ⟨?_, i2⟩
      dsimp only [Lex.apply, lastNum]
      rw [getNumer_setNumer, i1]
    | denom s' d =>
      refine ⟨i1, ?_⟩
      dsimp only [Lex.apply, lastDen]
      rw [getDenom_setDenom, i2]
      split <;> rfl
    | both s' t' n d =>
      dsimp only [Lex.apply, lastDen, lastNum, Lex.setNumDen]
      rw [getNumer_setNumer, getNumer_setDenom, i1, getDenom_setNumer, getDenom_setDenom, i2]
      refine ⟨rfl, ?_⟩
      split <;> rfl
    | clear => exact ⟨rfl, rfl⟩

/-! ### C136 -/

/-- C136: after any sequence of calls, the numerator of a pair is the last one set, and not found if none was set; the same
holds of denominators. -/
theorem C136_history (ops : List Op) (s t : Nat) :
    (ops.foldl Lex.apply Lex.empty).getNumer s t = lastNum s t ops.reverse ∧
    (ops.foldl Lex.apply Lex.empty).getDenom s = flagged (lastDen s ops.reverse) := by
  have := hist_spec ops.reverse s t
  rw [List.foldr_reverse] at this
  exact this

/-- C136: the sources returned for a target are those with a numerator; there is no other translation. -/
theorem C136_trans (x : Lex) (s t : Nat) :
    (∃ l, x.transForTarget t = some l ∧ s ∈ l) ↔ ∃ f, x.getNumer s t = some f := by
  rw [getNumer_eq]
  unfold Lex.transForTarget
  constructor
  · rintro ⟨l, hl, hs⟩
    split at hl
    · cases hl
    · cases hl
      cases h : AMap.lk (x.numer.getD t []) s with
      | none => exact absurd hs (AMap.lk_none_iff.1 h)
      | some f => exact ⟨f, rfl⟩
  · rintro ⟨f, hf⟩
    have hlt : ¬ t ≥ x.numer.length := by
      intro h
      rw [List.getD_eq_getElem?_getD, List.getElem?_eq_none (by omega)] at hf
      cases hf
    rw [if_neg hlt]
    refine ⟨_, rfl, ?_⟩
    apply Classical.byContradiction
    intro hn
    rw [AMap.lk_none_iff.2 hn] at hf
    cases hf

/-- Loading a file: each pair gets the numerator of its last record, each source the last denominator. -/
theorem load_ops (l : List (Rec Nat Nat)) :
    Lex.load l = (l.map fun r => Op.both r.s r.t r.num r.den).foldl Lex.apply Lex.empty := by
  unfold Lex.load
  rw [List.foldl_map]
  rfl

/-- Loading a table with at most one record per pair and one denominator per source. -/
theorem load_spec (l : List (Rec Nat Nat)) (hd : (l.map fun r => (r.s, r.t)).Nodup)
    (hden : ∀ a ∈ l, ∀ b ∈ l, a.s = b.s → a.den = b.den) (s t : Nat) :
    (∀ r ∈ l, r.s = s → r.t = t → (Lex.load l).getNumer s t = some r.num) ∧
    ((∀ r ∈ l, ¬ (r.s = s ∧ r.t = t)) → (Lex.load l).getNumer s t = none) ∧
    (∀ r ∈ l, r.s = s → (Lex.load l).getDenom s = (true, r.den)) ∧
    ((∀ r ∈ l, r.s ≠ s) → (Lex.load l).getDenom s = (false, 0)) := by
  have hl : ∀ m : List (Rec Nat Nat), ∀ s t, (Lex.load m).getNumer s t = lastNum s t (m.reverse.map fun r => Op.both r.s r.t r.num r.den) ∧
      (Lex.load m).getDenom s = flagged (lastDen s (m.reverse.map fun r => Op.both r.s r.t r.num r.den)) := by
    intro m s t
    rw [load_ops]
    have := C136_history (m.map fun r => Op.both r.s r.t r.num r.den) s t
    rw [← List.map_reverse] at this
    exact this
  rw [(hl l s t).1, (hl l s t).2]
  have hd' : (l.reverse.map fun r => (r.s, r.t)).Nodup := by
    rw [List.map_reverse, List.nodup_reverse]; exact hd
  have hden' : ∀ a ∈ l.reverse, ∀ b ∈ l.reverse, a.s = b.s → a.den = b.den := by
    intro a ha b hb
    exact hden a (List.mem_reverse.1 ha) b (List.mem_reverse.1 hb)
  have key : ∀ m : List (Rec Nat Nat), (m.map fun r => (r.s, r.t)).Nodup →
      (∀ a ∈ m, ∀ b ∈ m, a.s = b.s → a.den = b.den) →
      (∀ r ∈ m, r.s = s → r.t = t → lastNum s t (m.map fun r => Op.both r.s r.t r.num r.den) = some r.num) ∧
      ((∀ r ∈ m, ¬ (r.s = s ∧ r.t = t)) → lastNum s t (m.map fun r => Op.both r.s r.t r.num r.den) = none) ∧
      (∀ r ∈ m, r.s = s → lastDen s (m.map fun r => Op.both r.s r.t r.num r.den) = some r.den) ∧
      ((∀ r ∈ m, r.s ≠ s) → lastDen s (m.map fun r => Op.both r.s r.t r.num r.den) = none) := by
    intro m
    induction m with
    | nil =>
      intro _ _
      exact ⟨fun r h => (by cases h), fun _ => rfl, fun r h => (by cases h), fun _ => rfl⟩
    | cons x m ih =>
      intro n1 n2
      rw [List.map_cons, List.nodup_cons] at n1
      obtain ⟨i1, i2, i3, i4⟩ := ih n1.2 (fun a ha b hb => n2 a (List.mem_cons_of_mem _ ha) b (List.mem_cons_of_mem _ hb))
      rw [List.map_cons]
      dsimp only [lastNum, lastDen]
      refine ⟨?_, ?_, ?_, ?_⟩
      · intro r hr h1 h2
        rcases List.mem_cons.1 hr with rfl | hr
        · rw [if_pos ⟨h1, h2⟩]
        · rw [if_neg, i1 r hr h1 h2]
          rintro ⟨e1, e2⟩
          apply n1.1
          rw [List.mem_map]
          exact ⟨r, hr, by rw [h1, h2, e1, e2]⟩
      · intro h
        rw [if_neg (h x List.mem_cons_self)]
        exact i2 fun r hr => h r (List.mem_cons_of_mem _ hr)
      · intro r hr h1
        by_cases hx : x.s = s
        · rw [if_pos hx, n2 x List.mem_cons_self r hr (hx.trans h1.symm)]
        · rw [if_neg hx]
          rcases List.mem_cons.1 hr with rfl | hr
          · exact absurd h1 hx
          · exact i3 r hr h1
      · intro h
        rw [if_neg (h x List.mem_cons_self)]
        exact i4 fun r hr => h r (List.mem_cons_of_mem _ hr)
  obtain ⟨k1, k2, k3, k4⟩ := key l.reverse hd' hden'
  refine ⟨fun r hr => k1 r (List.mem_reverse.2 hr), fun h => k2 fun r hr => h r (List.mem_reverse.1 hr), ?_, ?_⟩
  · intro r hr h1
    rw [k3 r (List.mem_reverse.2 hr) h1]; rfl
  · intro h
    rw [k4 fun r hr => h r (List.mem_reverse.1 hr)]; rfl

/-- Tables in which every ordered vector has one element per key: all that are reachable. -/
def Ok (x : Lex) : Prop := ∀ t, AMap.Distinct (x.numer.getD t [])

theorem ok_apply {x : Lex} (h : Ok x) (o : Op) : Ok (x.apply o) := by
  have hset : ∀ (x : Lex) s t f, Ok x → Ok (x.setNumer s t f) := by
    intro x s t f h u
    unfold Lex.setNumer
    dsimp only
    rw [getD_grow_set, getD_grow]
    split
    · exact AMap.distinct_put (h t) s f
    · exact h u
  cases o with
  | numer s t f => exact hset x s t f h
  | denom s d => exact h
  | both s t n d => exact hset _ s t n h
  | clear => intro t; exact AMap.distinct_nil

theorem ok_reach (ops : List Op) : Ok (ops.foldl Lex.apply Lex.empty) := by
  have : ∀ x, Ok x → Ok (ops.foldl Lex.apply x) := by
    induction ops with
    | nil => intro x h; exact h
    | cons o ops ih => intro x h; exact ih _ (ok_apply h o)
  exact this _ (fun t => AMap.distinct_nil)

theorem mem_print (x : Lex) (hx : Ok x) (r : Rec Nat Nat) :
    r ∈ x.print ↔ x.getNumer r.s r.t = some r.num ∧ r.den = (x.getDenom r.s).2 := by
  unfold Lex.print
  rw [List.mem_flatMap, getNumer_eq]
  constructor
  · rintro ⟨t, ht, hr⟩
    obtain ⟨e, he, rfl⟩ := List.mem_map.1 hr
    exact ⟨(AMap.lk_some_iff (hx t)).2 he, rfl⟩
  · rintro ⟨h1, h2⟩
    refine ⟨r.t, ?_, List.mem_map.2 ⟨(r.s, r.num), (AMap.lk_some_iff (hx r.t)).1 h1, ?_⟩⟩
    · apply List.mem_range.2
      apply Classical.byContradiction
      intro h
      rw [List.getD_eq_getElem?_getD, List.getElem?_eq_none (by omega)] at h1
      cases h1
    · cases r
      dsimp only at h2 ⊢
      rw [h2]

theorem print_nodup (x : Lex) (hx : Ok x) : (x.print.map fun r => (r.s, r.t)).Nodup := by
  unfold Lex.print
  rw [List.map_flatMap, List.nodup_flatMap]
  refine ⟨?_, ?_⟩
  · intro t _
    rw [List.map_map]
    have : ((fun r : Rec Nat Nat => (r.s, r.t)) ∘ fun e : Nat × Rat => (⟨e.1, t, e.2, (x.getDenom e.1).2⟩ : Rec Nat Nat)) =
        (fun s => (s, t)) ∘ Prod.fst := rfl
    rw [this, ← List.map_map]
    exact (hx t).map (fun a b h => (Prod.mk.inj h).1)
  · refine List.nodup_range.imp ?_
    intro a b hab
    intro k hk hk'
    rw [List.mem_map] at hk hk'
    obtain ⟨r, hr, rfl⟩ := hk
    obtain ⟨r', hr', he⟩ := hk'
    obtain ⟨e, _, rfl⟩ := List.mem_map.1 hr
    obtain ⟨e', _, rfl⟩ := List.mem_map.1 hr'
    exact hab ((Prod.mk.inj he).2).symm

/-- C136: printing a table and loading the file gives the same numerators, and the same denominators for the sources that have
a numerator (found, with value 0 if the denominator was never set); other denominators are lost. -/
theorem C136_roundtrip (ops : List Op) (s t : Nat) :
    let x := ops.foldl Lex.apply Lex.empty
    (Lex.load x.print).getNumer s t = x.getNumer s t ∧
    ((∃ u f, x.getNumer s u = some f) → (Lex.load x.print).getDenom s = (true, (x.getDenom s).2)) ∧
    ((∀ u, x.getNumer s u = none) → (Lex.load x.print).getDenom s = (false, 0)) := by
  obtain ⟨x, hxe⟩ : ∃ x, x = ops.foldl Lex.apply Lex.empty := ⟨_, rfl⟩
  have hx : Ok x := by rw [hxe]; exact ok_reach ops
  rw [← hxe]
  dsimp only
  obtain ⟨k1, k2, k3, k4⟩ := load_spec x.print (print_nodup x hx) (by
    intro a ha b hb hab
    rw [((mem_print x hx a).1 ha).2, ((mem_print x hx b).1 hb).2, hab]) s t
  refine ⟨?_, ?_, ?_⟩
  · cases h : x.getNumer s t with
    | none =>
      apply k2
      rintro r hr ⟨h1, h2⟩
      have := ((mem_print x hx r).1 hr).1
      rw [h1, h2, h] at this
      cases this
    | some f => exact k1 ⟨s, t, f, (x.getDenom s).2⟩ ((mem_print x hx _).2 ⟨h, rfl⟩) rfl rfl
  · rintro ⟨u, f, h⟩
    exact k3 ⟨s, u, f, (x.getDenom s).2⟩ ((mem_print x hx _).2 ⟨h, rfl⟩) rfl
  · intro h
    apply k4
    intro r hr hrs
    have := ((mem_print x hx r).1 hr).1
    rw [hrs, h] at this
    cases this

/-- C136: loading the file that merges the tables of several processes gives the sums of their counts. -/
theorem C136_load_merged (files : Nat → List (Rec Nat Nat)) (k : Nat) (hf : ∀ i, i < k → Table (files i))
    (hne : ∃ i, i < k ∧ files i ≠ []) (o : List (Rec Nat Nat)) (h : Merges files k (some o)) (s t : Nat)
    (hin : ∃ i, i < k ∧ ∃ r ∈ files i, r.s = s ∧ r.t = t) :
    (Lex.load o).getNumer s t = some (sumBy (fun i => numOf (files i) s t) (List.range k)) ∧
    (Lex.load o).getDenom s = (true, sumBy (fun i => denOf (files i) s) (List.range k)) := by
  obtain ⟨o', ho', ht, hm⟩ := C133_merge files k hf hne (some o) h
  cases ho'
  obtain ⟨k1, _, k3, _⟩ := load_spec o (by
    rw [List.nodup_iff_pairwise_ne, List.pairwise_map]
    refine ht.1.imp ?_
    rintro a b hab he
    have := Prod.mk.inj he
    rcases hab with h | ⟨_, h⟩
    · rw [this.1] at h; exact lt_irrefl _ h
    · rw [this.2] at h; exact lt_irrefl _ h) ht.2 s t
  have hr := (hm s t _ _).2 ⟨hin, rfl, rfl⟩
  exact ⟨k1 _ hr rfl rfl, k3 _ hr rfl⟩

/-! ### Non-vacuity -/

def exFiles : Nat → List (Rec Nat Nat)
  | 0 => [⟨0, 1, 2, 5⟩, ⟨0, 3, 3, 5⟩, ⟨4, 1, 1, 1⟩]
  | 1 => [⟨0, 3, 1, 1⟩, ⟨2, 2, 7, 7⟩]
  | _ => []

instance (a b : Rec Nat Nat) : Decidable (kLt a b) := by unfold kLt; infer_instance

/-- The example tables are tables, and the output of the program for them, for one order of the ties. -/
example : (∀ i, i < 2 → Table (exFiles i)) := by
  intro i hi
  have : i = 0 ∨ i = 1 := by omega
  rcases this with rfl | rfl <;> refine ⟨by decide +kernel, by decide +kernel⟩

example : finish (([⟨⟨0, 1, 2, 5⟩, 0⟩, ⟨⟨0, 3, 1, 1⟩, 1⟩, ⟨⟨0, 3, 3, 5⟩, 0⟩, ⟨⟨2, 2, 7, 7⟩, 1⟩, ⟨⟨4, 1, 1, 1⟩, 0⟩] : List (Ent Nat Nat)).foldl step St.init) =
    some [⟨0, 1, 2, 6⟩, ⟨0, 3, 4, 6⟩, ⟨2, 2, 7, 7⟩, ⟨4, 1, 1, 1⟩] := by decide +kernel

example : pruneGroups ([⟨0, 1, 2, 6⟩, ⟨0, 3, 4, 6⟩, ⟨2, 2, 7, 7⟩] : List (Rec Nat Nat)) =
    [(0, [(1, 2), (3, 4)], 6), (2, [(2, 7)], 7)] := by decide +kernel
example : pruneGroup 1 (1 / 2) 0 6 [(3, 4), (1, 2)] = ([⟨0, 3, 4, 4⟩] : List (Rec Nat Nat)) := by decide +kernel
example : filter ([⟨0, 1, 2, 6⟩, ⟨0, 3, 4, 6⟩, ⟨2, 2, 7, 7⟩] : List (Rec Nat Nat)) [(0, 3), (2, 2)] = [⟨0, 3, 4, 6⟩, ⟨2, 2, 7, 7⟩] := by
  decide +kernel

end Thot.LexMerge
