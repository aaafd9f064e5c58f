import Verif.AligTab.Model
namespace Thot.AligTab

open Thot Thot.LexMerge

/-! ### Bytes -/

theorem length_enc (n : UInt32) : (enc n).length = 4 := rfl

theorem dec_enc (n : UInt32) : dec (enc n) = n := by
  unfold enc dec
  apply UInt32.toNat_inj.1
  have h : n.toNat < 4294967296 := n.toNat_lt
  rw [UInt32.toNat_ofNat']
  simp only [show (2:Nat) ^ 32 = 4294967296 from rfl]
  omega

theorem length_flat (l : List UInt32) : (l.flatMap enc).length = 4 * l.length := by
  induction l with
  | nil => rfl
  | cons a l ih => rw [List.flatMap_cons, List.length_append, ih, length_enc, List.length_cons]; omega

theorem field_flat (l : List UInt32) : ∀ (i : Nat) (rest : List Nat), i < l.length →
    field (l.flatMap enc ++ rest) i = l.getD i 0 := by
  induction l with
  | nil => intro i rest h; cases h
  | cons a l ih =>
    intro i rest h
    cases i with
    | zero =>
      unfold field
      rw [List.flatMap_cons, List.append_assoc, List.drop_zero, List.take_left' (length_enc a), dec_enc]
      rfl
    | succ i =>
      have := ih i rest (by simpa using h)
      unfold field at this ⊢
      rw [List.flatMap_cons, List.append_assoc, show 4 * (i + 1) = 4 + 4 * i from by omega, ← List.drop_drop,
        List.drop_left' (length_enc a), this]
      rfl

theorem encRec_flat (r : FRec) : encRec r = (r.key ++ [r.num, r.den]).flatMap enc := by
  unfold encRec
  rw [List.flatMap_append, List.append_assoc]
  rfl

theorem length_encRec (r : FRec) : (encRec r).length = 4 * (r.key.length + 2) := by
  rw [encRec_flat, length_flat, List.length_append]; rfl

theorem readRecs_succ (k n : Nat) (b : List Nat) : readRecs k (n + 1) b =
    if b.length < 4 then some []
    else if b.length < 4 * (k + 2) then none
    else (readRecs k n (b.drop (4 * (k + 2)))).map fun l =>
      ⟨(List.range k).map (field b), field b k, field b (k + 1)⟩ :: l := rfl

theorem readRecs_cons (k n : Nat) (r : FRec) (hk : r.key.length = k) (rest : List Nat) :
    readRecs k (n + 1) (encRec r ++ rest) = (readRecs k n rest).map (r :: ·) := by
  have hl : (encRec r ++ rest).length = 4 * (k + 2) + rest.length := by rw [List.length_append, length_encRec, hk]
  rw [readRecs_succ, if_neg (show ¬ (encRec r ++ rest).length < 4 by omega), if_neg (show ¬ (encRec r ++ rest).length < 4 * (k + 2) by omega),
    List.drop_left' (show (encRec r).length = 4 * (k + 2) by rw [length_encRec, hk])]
  congr 1
  funext l
  have hf : ∀ i, i < k + 2 → field (encRec r ++ rest) i = (r.key ++ [r.num, r.den]).getD i 0 := by
    intro i hi
    rw [encRec_flat]
    apply field_flat
    rw [List.length_append, hk]; exact hi
  rw [hf k (by omega), hf (k + 1) (by omega)]
  congr 1
  obtain ⟨key, num, den⟩ := r
  dsimp only at hk hf ⊢
  subst hk
  congr 1
  · apply List.ext_getElem
    · simp
    · intro i h1 h2
      rw [List.getElem_map, List.getElem_range, hf i (by simp at h1; omega), List.getD_eq_getElem?_getD,
        List.getElem?_append_left h2, List.getElem?_eq_getElem h2]
      rfl
  · rw [List.getD_eq_getElem?_getD, List.getElem?_append_right (by omega)]; simp
  · rw [List.getD_eq_getElem?_getD, List.getElem?_append_right (by omega)]; simp

theorem readRecs_app (k : Nat) (l : List FRec) : ∀ (n : Nat) (rest : List Nat), (∀ r ∈ l, r.key.length = k) →
    readRecs k (l.length + n) (encRecs l ++ rest) = (readRecs k n rest).map (l ++ ·) := by
  induction l with
  | nil => intro n rest _; simp [encRecs]
  | cons r l ih =>
    intro n rest h
    have e : encRecs (r :: l) ++ rest = encRec r ++ (encRecs l ++ rest) := by
      unfold encRecs; rw [List.flatMap_cons, List.append_assoc]
    rw [e, show (r :: l).length + n = (l.length + n) + 1 from by rw [List.length_cons]; omega,
      readRecs_cons k _ r (h r List.mem_cons_self), ih n rest fun r' hr' => h r' (List.mem_cons_of_mem _ hr')]
    cases readRecs k n rest <;> rfl

theorem length_encRecs (k : Nat) (l : List FRec) (h : ∀ r ∈ l, r.key.length = k) : (encRecs l).length = 4 * (k + 2) * l.length := by
  induction l with
  | nil => rfl
  | cons r l ih =>
    unfold encRecs
    rw [List.flatMap_cons, List.length_append, length_encRec, h r List.mem_cons_self]
    have := ih fun r' hr' => h r' (List.mem_cons_of_mem _ hr')
    unfold encRecs at this
    rw [this, List.length_cons, Nat.mul_add (4 * (k + 2)), Nat.mul_one]; omega

theorem le_length_encRecs (k : Nat) (l : List FRec) (h : ∀ r ∈ l, r.key.length = k) : l.length ≤ (encRecs l).length := by
  rw [length_encRecs k l h]
  calc l.length = 1 * l.length := by omega
    _ ≤ _ := Nat.mul_le_mul_right _ (by omega)

theorem readRecs_short (k n : Nat) (b : List Nat) (h : b.length < 4) : readRecs k n b = some [] := by
  cases n with
  | zero => rfl
  | succ n => unfold readRecs; rw [if_pos h]

theorem readRecs_cut (k n : Nat) (b : List Nat) (h : 4 ≤ b.length) (h' : b.length < 4 * (k + 2)) : readRecs k (n + 1) b = none := by
  unfold readRecs; rw [if_neg (by omega), if_pos h']

/-- A file of complete records, perhaps with one to three more bytes. -/
theorem readFile_ok (k : Nat) (l : List FRec) (h : ∀ r ∈ l, r.key.length = k) (rest : List Nat) (hr : rest.length < 4) :
    readFile k (encRecs l ++ rest) = some l := by
  unfold readFile
  obtain ⟨n, hn⟩ : ∃ n, (encRecs l ++ rest).length + 1 = l.length + n :=
    ⟨(encRecs l ++ rest).length + 1 - l.length, by
      have := le_length_encRecs k l h
      rw [List.length_append]; omega⟩
  rw [hn, readRecs_app k l n rest h, readRecs_short k n rest hr]
  simp

/-- A file whose last record is cut. -/
theorem readFile_cut (k : Nat) (l : List FRec) (h : ∀ r ∈ l, r.key.length = k) (rest : List Nat) (hr : 4 ≤ rest.length)
    (hr' : rest.length < 4 * (k + 2)) : readFile k (encRecs l ++ rest) = none := by
  unfold readFile
  obtain ⟨n, hn⟩ : ∃ n, (encRecs l ++ rest).length + 1 = l.length + (n + 1) :=
    ⟨(encRecs l ++ rest).length - l.length, by
      have := le_length_encRecs k l h
      rw [List.length_append]; omega⟩
  rw [hn, readRecs_app k l (n + 1) rest h, readRecs_cut k n rest hr hr']
  rfl

/-- Whatever is read is a sequence of records with keys of `k` fields. -/
theorem readRecs_keys (k : Nat) : ∀ (n : Nat) (b : List Nat) (l : List FRec), readRecs k n b = some l → ∀ r ∈ l, r.key.length = k := by
  intro n
  induction n with
  | zero => intro b l h; cases h; intro r hr; cases hr
  | succ n ih =>
    intro b l h
    unfold readRecs at h
    split at h
    · cases h; intro r hr; cases hr
    · split at h
      · cases h
      · cases hx : readRecs k n (b.drop (4 * (k + 2))) with
        | none => rw [hx] at h; cases h
        | some l' =>
          rw [hx] at h
          cases h
          intro r hr
          rcases List.mem_cons.1 hr with rfl | hr
          · simp
          · exact ih _ _ hx r hr

/-! ### Histories -/

/-- The calls that change a table with keys of type `K`. -/
inductive Op (K : Type) where
  | numer (k : K) (i f : UInt32)
  | denom (k : K) (f : UInt32)
  | both (k : K) (i n d : UInt32)
  | clear

/-- The numerator given last to a key and a position, since the last `clear`; calls in reverse order. -/
def lastNum {K : Type} [DecidableEq K] (k : K) (i : UInt32) : List (Op K) → Option UInt32
  | [] => none
  | .numer k' i' f :: l => if k' = k ∧ i' = i then some f else lastNum k i l
  | .both k' i' n _ :: l => if k' = k ∧ i' = i then some n else lastNum k i l
  | .denom _ _ :: l => lastNum k i l
  | .clear :: _ => none

/-- The denominator given last to a key. -/
def lastDen {K : Type} [DecidableEq K] (k : K) : List (Op K) → Option UInt32
  | [] => none
  | .denom k' d :: l => if k' = k then some d else lastDen k l
  | .both k' _ _ d :: l => if k' = k then some d else lastDen k l
  | .numer _ _ _ :: l => lastDen k l
  | .clear :: _ => none

/-- An entry of a table: key, position, numerator and denominator. -/
structure Ent (K : Type) where
  k : K
  i : UInt32
  n : UInt32
  d : UInt32

/-- Setting entries with at most one per key and position and one denominator per key, in any order. -/
theorem ent_spec {K : Type} [DecidableEq K] (k : K) (i : UInt32) (m : List (Ent K)) (n1 : (m.map fun r => (r.k, r.i)).Nodup)
    (n2 : ∀ a ∈ m, ∀ b ∈ m, a.k = b.k → a.d = b.d) :
    (∀ r ∈ m, r.k = k → r.i = i → lastNum k i (m.map fun r => Op.both r.k r.i r.n r.d) = some r.n) ∧
    ((∀ r ∈ m, ¬ (r.k = k ∧ r.i = i)) → lastNum k i (m.map fun r => Op.both r.k r.i r.n r.d) = none) ∧
    (∀ r ∈ m, r.k = k → lastDen k (m.map fun r => Op.both r.k r.i r.n r.d) = some r.d) ∧
    ((∀ r ∈ m, r.k ≠ k) → lastDen k (m.map fun r => Op.both r.k r.i r.n r.d) = none) := by
  induction m with
  | nil => exact ⟨fun r h => (by cases h), fun _ => rfl, fun r h => (by cases h), fun _ => rfl⟩
  | cons x m ih =>
    rw [List.map_cons, List.nodup_cons] at n1
    obtain ⟨i1, i2, i3, i4⟩ := ih n1.2 (fun a ha b hb => n2 a (List.mem_cons_of_mem _ ha) b (List.mem_cons_of_mem _ hb))
    rw [List.map_cons]
    dsimp only [lastNum, lastDen]
    refine ⟨?_, ?_, ?_, ?_⟩
    · intro r hr h1 h2
      rcases List.mem_cons.1 hr with rfl | hr
      · rw [if_pos ⟨h1, h2⟩]
      · rw [if_neg, i1 r hr h1 h2]
        rintro ⟨e1, e2⟩
        apply n1.1
        rw [List.mem_map]
        exact ⟨r, hr, by rw [h1, h2, e1, e2]⟩
    · intro h
      rw [if_neg (h x List.mem_cons_self)]
      exact i2 fun r hr => h r (List.mem_cons_of_mem _ hr)
    · intro r hr h1
      by_cases hx : x.k = k
      · rw [if_pos hx, n2 x List.mem_cons_self r hr (hx.trans h1.symm)]
      · rw [if_neg hx]
        rcases List.mem_cons.1 hr with rfl | hr
        · exact absurd h1 hx
        · exact i3 r hr h1
    · intro h
      rw [if_neg (h x List.mem_cons_self)]
      exact i4 fun r hr => h r (List.mem_cons_of_mem _ hr)

/-! ### The HMM table -/

def Hmm.apply (x : Hmm) : Op HKey → Hmm
  | .numer k i f => x.setNumer k i f
  | .denom k d => x.setDenom k d
  | .both k i n d => x.setNumDen k i n d
  | .clear => Hmm.empty

theorem getD_short {A : Type} (l : List A) (i : Nat) (z : A) (h : ¬ i < l.length) : l.getD i z = z := by
  rw [List.getD_eq_getElem?_getD, List.getElem?_eq_none (by omega)]; rfl

theorem hmm_getNumer (x : Hmm) (k : HKey) (i : UInt32) :
    x.getNumer k i = ((x.numer.getD i.toNat []).getD k.prev.toNat []).getD k.slen.toNat (false, 0) := by
  unfold Hmm.getNumer
  split
  · rw [getD_short x.numer _ _ (by omega)]; rfl
  · split
    · split
      · rfl
      · rw [getD_short _ k.slen.toNat _ (by omega)]
    · rw [getD_short (x.numer.getD i.toNat []) k.prev.toNat _ (by omega)]; rfl

theorem hmm_getDenom (x : Hmm) (k : HKey) : x.getDenom k = (x.denom.getD k.prev.toNat []).getD k.slen.toNat (false, 0) := by
  unfold Hmm.getDenom
  split
  · split
    · rfl
    · rw [getD_short _ k.slen.toNat _ (by omega)]
  · rw [getD_short x.denom k.prev.toNat _ (by omega)]; rfl

theorem setRow_get (e : List (List (Bool × UInt32))) (k k' : HKey) (f : UInt32) :
    ((setRow e k f).getD k'.prev.toNat []).getD k'.slen.toNat (false, 0) =
      if k = k' then (true, f) else (e.getD k'.prev.toNat []).getD k'.slen.toNat (false, 0) := by
  unfold setRow
  rw [getD_grow_set, getD_grow]
  by_cases hp : k'.prev.toNat = k.prev.toNat
  · rw [if_pos hp, getD_grow_set]
    by_cases hs : k'.slen.toNat = k.slen.toNat
    · rw [if_pos hs, if_pos]
      cases k; cases k'
      dsimp only at hp hs
      rw [UInt32.toNat_inj.1 hp, UInt32.toNat_inj.1 hs]
    · rw [if_neg hs, if_neg (fun h => hs (by rw [h])), hp]
  · rw [if_neg hp, if_neg (fun h => hp (by rw [h]))]

theorem hmm_getNumer_setNumer (x : Hmm) (k : HKey) (i f : UInt32) (k' : HKey) (i' : UInt32) :
    (x.setNumer k i f).getNumer k' i' = if k = k' ∧ i = i' then (true, f) else x.getNumer k' i' := by
  rw [hmm_getNumer, hmm_getNumer]
  unfold Hmm.setNumer
  dsimp only
  rw [getD_grow_set, getD_grow]
  by_cases hi : i'.toNat = i.toNat
  · rw [if_pos hi, setRow_get, hi]
    have : i = i' := UInt32.toNat_inj.1 hi.symm
    by_cases hk : k = k'
    · rw [if_pos hk, if_pos ⟨hk, this⟩]
    · rw [if_neg hk, if_neg (fun h => hk h.1)]
  · rw [if_neg hi, if_neg (fun h => hi (by rw [h.2]))]

theorem hmm_getDenom_setDenom (x : Hmm) (k : HKey) (f : UInt32) (k' : HKey) :
    (x.setDenom k f).getDenom k' = if k = k' then (true, f) else x.getDenom k' := by
  rw [hmm_getDenom, hmm_getDenom]
  exact setRow_get x.denom k k' f

theorem hmm_getNumer_setDenom (x : Hmm) (k : HKey) (f : UInt32) (k' : HKey) (i' : UInt32) :
    (x.setDenom k f).getNumer k' i' = x.getNumer k' i' := rfl
theorem hmm_getDenom_setNumer (x : Hmm) (k : HKey) (i f : UInt32) (k' : HKey) :
    (x.setNumer k i f).getDenom k' = x.getDenom k' := rfl

theorem hmm_hist (ops : List (Op HKey)) : ∀ k i,
    ((ops.foldr (fun o x => Hmm.apply x o) Hmm.empty).getNumer k i = found (lastNum k i ops)) ∧
    ((ops.foldr (fun o x => Hmm.apply x o) Hmm.empty).getDenom k = found (lastDen k ops)) := by
  induction ops with
  | nil => intro k i; exact ⟨rfl, rfl⟩
  | cons o ops ih =>
    intro k i
    obtain ⟨i1, i2⟩ := ih k i
    rw [List.foldr_cons]
    generalize ops.foldr (fun o x => Hmm.apply x o) Hmm.empty = y at i1 i2 ⊢
    cases o with
    | numer k' i' f =>
      refine ⟨?_, i2⟩
      dsimp only [Hmm.apply, lastNum]
      rw [hmm_getNumer_setNumer, i1]
      split <;> rfl
    | denom k' d =>
      refine ⟨i1, ?_⟩
      dsimp only [Hmm.apply, lastDen]
      rw [hmm_getDenom_setDenom, i2]
      split <;> rfl
    | both k' i' n d =>
      dsimp only [Hmm.apply, lastDen, lastNum, Hmm.setNumDen]
      rw [hmm_getNumer_setDenom, hmm_getNumer_setNumer, i1, hmm_getDenom_setDenom, hmm_getDenom_setNumer, i2]
      refine ⟨?_, ?_⟩ <;> split <;> rfl
    | clear => exact ⟨rfl, rfl⟩

/-! #### Sizes -/

/-- All the sizes can be reached by 32-bit counters. -/
def RowFits (e : List (List (Bool × UInt32))) : Prop := e.length < 2 ^ 32 ∧ ∀ p, (e.getD p []).length < 2 ^ 32
def Fits (x : Hmm) : Prop := x.numer.length < 2 ^ 32 ∧ ∀ i, RowFits (x.numer.getD i [])

theorem fits_iff {x : Hmm} (h : Fits x) : x.fits = true := by
  have hg : ∀ {A : Type} (l : List (List A)) (e : List A), e ∈ l → ∃ i : Nat, l.getD i [] = e := by
    intro A l e he
    obtain ⟨i, hi, rfl⟩ := List.mem_iff_getElem.1 he
    exact ⟨i, by rw [List.getD_eq_getElem?_getD, List.getElem?_eq_getElem hi]; rfl⟩
  unfold Hmm.fits
  rw [Bool.and_eq_true, List.all_eq_true]
  refine ⟨decide_eq_true h.1, fun e he => ?_⟩
  obtain ⟨i, rfl⟩ := hg _ _ he
  rw [Bool.and_eq_true, List.all_eq_true]
  refine ⟨decide_eq_true (h.2 i).1, fun v hv => ?_⟩
  obtain ⟨p, rfl⟩ := hg _ _ hv
  exact decide_eq_true ((h.2 i).2 p)

/-- Positions that can be printed: less than the largest one. -/
def Small (n : UInt32) : Prop := n.toNat < 2 ^ 32 - 1

theorem rowFits_nil : RowFits [] := ⟨by decide, fun p => by rw [getD_short _ _ _ (by simp)]; decide⟩

theorem rowFits_set {e : List (List (Bool × UInt32))} (h : RowFits e) (k : HKey) (hp : Small k.prev) (hs : Small k.slen) (f : UInt32) :
    RowFits (setRow e k f) := by
  unfold Small at hp hs
  refine ⟨?_, ?_⟩
  · unfold setRow
    rw [List.length_set, length_grow]
    have := h.1
    omega
  · intro p
    unfold setRow
    rw [getD_grow_set, getD_grow]
    split
    · rw [List.length_set, length_grow]
      have := h.2 k.prev.toNat
      omega
    · exact h.2 p

theorem fits_setNumer {x : Hmm} (h : Fits x) (k : HKey) (i f : UInt32) (hp : Small k.prev) (hs : Small k.slen) (hi : Small i) :
    Fits (x.setNumer k i f) := by
  unfold Small at hi
  unfold Hmm.setNumer
  refine ⟨?_, ?_⟩
  · dsimp only
    rw [List.length_set, length_grow]
    have := h.1
    omega
  · intro j
    dsimp only
    rw [getD_grow_set, getD_grow]
    split
    · exact rowFits_set (h.2 _) k hp hs f
    · exact h.2 j

/-- Calls with positions that can be printed. -/
def SmallOp : Op HKey → Prop
  | .numer k i _ => Small k.prev ∧ Small k.slen ∧ Small i
  | .both k i _ _ => Small k.prev ∧ Small k.slen ∧ Small i
  | .denom _ _ => True
  | .clear => True

theorem fits_empty : Fits Hmm.empty := ⟨by decide, fun i => by
  rw [show Hmm.empty.numer = [] from rfl, getD_short _ _ _ (by simp)]; exact rowFits_nil⟩

theorem fits_reach (ops : List (Op HKey)) (h : ∀ o ∈ ops, SmallOp o) : Fits (ops.foldl Hmm.apply Hmm.empty) := by
  have : ∀ x, Fits x → Fits (ops.foldl Hmm.apply x) := by
    induction ops with
    | nil => intro x hx; exact hx
    | cons o ops ih =>
      intro x hx
      rw [List.foldl_cons]
      apply ih fun o' ho' => h o' (List.mem_cons_of_mem _ ho')
      have ho := h o List.mem_cons_self
      cases o with
      | numer k i f => exact fits_setNumer hx k i f ho.1 ho.2.1 ho.2.2
      | denom k d => exact hx
      | both k i n d => exact fits_setNumer hx k i n ho.1 ho.2.1 ho.2.2
      | clear => exact fits_empty
  exact this _ fits_empty

/-! #### The file -/

/-- The entry of a record of the file. -/
def hEnt (r : FRec) : Ent HKey := ⟨⟨r.key.getD 0 0, r.key.getD 1 0⟩, r.key.getD 2 0, r.num, r.den⟩

theorem foldl_setRec (l : List FRec) (x : Hmm) :
    l.foldl Hmm.setRec x = ((l.map hEnt).map fun r => Op.both r.k r.i r.n r.d).foldl Hmm.apply x := by
  rw [List.map_map, List.foldl_map]
  rfl

theorem toNat_of (n : Nat) (h : n < 2 ^ 32) : (UInt32.ofNat n).toNat = n := by
  rw [UInt32.toNat_ofNat']; exact Nat.mod_eq_of_lt h

theorem ofNat_of (u : UInt32) : UInt32.ofNat u.toNat = u := UInt32.toNat_inj.1 (toNat_of _ u.toNat_lt)

theorem mem_recs {x : Hmm} (hx : Fits x) (r : FRec) : r ∈ x.recs ↔ ∃ p s i : UInt32,
    r.key = [p, s, i] ∧ x.getNumer ⟨p, s⟩ i = (true, r.num) ∧ r.den = (x.getDenom ⟨p, s⟩).2 := by
  unfold Hmm.recs
  rw [List.mem_flatMap]
  constructor
  · rintro ⟨i, hi, hr⟩
    obtain ⟨p, hp, hr⟩ := List.mem_flatMap.1 hr
    obtain ⟨s, hs, hr⟩ := List.mem_flatMap.1 hr
    rw [List.mem_range] at hi hp hs
    have hi' := Nat.lt_trans hi hx.1
    have hp' := Nat.lt_trans hp (hx.2 i).1
    have hs' := Nat.lt_trans hs ((hx.2 i).2 p)
    split at hr
    · rename_i hb
      rw [List.mem_singleton] at hr
      subst hr
      refine ⟨_, _, _, rfl, ?_, rfl⟩
      rw [hmm_getNumer]
      dsimp only
      rw [toNat_of _ hi', toNat_of _ hp', toNat_of _ hs']
      exact Prod.ext hb rfl
    · cases hr
  · rintro ⟨p, s, i, hk, hn, hd⟩
    rw [hmm_getNumer] at hn
    dsimp only at hn
    have hs : s.toNat < ((x.numer.getD i.toNat []).getD p.toNat []).length := by
      apply Classical.byContradiction
      intro h
      rw [getD_short _ _ _ h] at hn
      cases congrArg Prod.fst hn
    have hp : p.toNat < (x.numer.getD i.toNat []).length := by
      apply Classical.byContradiction
      intro h
      rw [getD_short _ p.toNat _ h] at hs
      cases hs
    have hi : i.toNat < x.numer.length := by
      apply Classical.byContradiction
      intro h
      rw [getD_short _ i.toNat _ h] at hp
      cases hp
    refine ⟨i.toNat, List.mem_range.2 hi, List.mem_flatMap.2 ⟨p.toNat, List.mem_range.2 hp,
      List.mem_flatMap.2 ⟨s.toNat, List.mem_range.2 hs, ?_⟩⟩⟩
    rw [hn, if_pos rfl, List.mem_singleton, ofNat_of, ofNat_of, ofNat_of]
    cases r
    dsimp only at hk hd ⊢
    rw [hk, hd]

theorem recs_nodup {x : Hmm} (hx : Fits x) : (x.recs.map fun r => r.key).Nodup := by
  unfold Hmm.recs
  rw [List.map_flatMap, List.nodup_flatMap]
  have key : ∀ i p s (k : List UInt32), k ∈ List.map (fun r : FRec => r.key)
      (if (((x.numer.getD i []).getD p []).getD s (false, 0)).1 = true then
          [(⟨[UInt32.ofNat p, UInt32.ofNat s, UInt32.ofNat i], (((x.numer.getD i []).getD p []).getD s (false, 0)).2,
            (x.getDenom ⟨UInt32.ofNat p, UInt32.ofNat s⟩).2⟩ : FRec)] else []) →
      k = [UInt32.ofNat p, UInt32.ofNat s, UInt32.ofNat i] := by
    intro i p s k hk
    split at hk
    · rw [List.map_singleton, List.mem_singleton] at hk
      exact hk
    · cases hk
  have inj : ∀ a b : Nat, a < 2 ^ 32 → b < 2 ^ 32 → UInt32.ofNat a = UInt32.ofNat b → a = b := by
    intro a b ha hb h
    rw [← toNat_of a ha, ← toNat_of b hb, h]
  refine ⟨?_, ?_⟩
  · intro i hi
    rw [List.map_flatMap, List.nodup_flatMap]
    refine ⟨?_, ?_⟩
    · intro p hp
      rw [List.map_flatMap, List.nodup_flatMap]
      refine ⟨?_, ?_⟩
      · intro s _
        split
        · exact List.nodup_singleton _
        · exact List.nodup_nil
      · refine (List.Pairwise.and_mem.1 (List.nodup_iff_pairwise_ne.1 List.nodup_range)).imp ?_
        rintro a b ⟨ha, hb, hab⟩ k hk hk'
        have := (key _ _ _ _ hk).symm.trans (key _ _ _ _ hk')
        simp only [List.cons.injEq, and_true, true_and] at this
        exact hab (inj a b (Nat.lt_trans (List.mem_range.1 ha) ((hx.2 i).2 p)) (Nat.lt_trans (List.mem_range.1 hb) ((hx.2 i).2 p)) this)
    · refine (List.Pairwise.and_mem.1 (List.nodup_iff_pairwise_ne.1 List.nodup_range)).imp ?_
      rintro a b ⟨ha, hb, hab⟩ k hk hk'
      dsimp only at hk hk'
      rw [List.map_flatMap, List.mem_flatMap] at hk hk'
      obtain ⟨s, _, hk⟩ := hk
      obtain ⟨s', _, hk'⟩ := hk'
      have := (key _ _ _ _ hk).symm.trans (key _ _ _ _ hk')
      simp only [List.cons.injEq, and_true] at this
      exact hab (inj a b (Nat.lt_trans (List.mem_range.1 ha) (hx.2 i).1) (Nat.lt_trans (List.mem_range.1 hb) (hx.2 i).1) this.1)
  · refine (List.Pairwise.and_mem.1 (List.nodup_iff_pairwise_ne.1 List.nodup_range)).imp ?_
    rintro a b ⟨ha, hb, hab⟩ k hk hk'
    dsimp only at hk hk'
    rw [List.map_flatMap, List.mem_flatMap] at hk hk'
    obtain ⟨p, _, hk⟩ := hk
    obtain ⟨p', _, hk'⟩ := hk'
    rw [List.map_flatMap, List.mem_flatMap] at hk hk'
    obtain ⟨s, _, hk⟩ := hk
    obtain ⟨s', _, hk'⟩ := hk'
    have := (key _ _ _ _ hk).symm.trans (key _ _ _ _ hk')
    simp only [List.cons.injEq, and_true] at this
    exact hab (inj a b (Nat.lt_trans (List.mem_range.1 ha) hx.1) (Nat.lt_trans (List.mem_range.1 hb) hx.1) this.2.2)

end Thot.AligTab
