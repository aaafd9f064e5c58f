import Verif.AligTab.Lemmas
/-!
C229, C230: tables of alignment counts. C231: sorting of table files. C232: tables of several processes, sorted, merged and
filtered.
-/
namespace Thot.AligTab

open Thot Thot.LexMerge Thot.Sum

/-! ### C229 -/

/-- C229: after any calls the numerator of a previous position, source length and position is the last one set since the last
`clear`, and not found (value 0) if none was set; the same holds of denominators. -/
theorem C229_history (ops : List (Op HKey)) (k : HKey) (i : UInt32) :
    (ops.foldl Hmm.apply Hmm.empty).getNumer k i = (match lastNum k i ops.reverse with | some f => (true, f) | none => (false, 0)) ∧
    (ops.foldl Hmm.apply Hmm.empty).getDenom k = (match lastDen k ops.reverse with | some f => (true, f) | none => (false, 0)) := by
  have := hmm_hist ops.reverse k i
  rw [List.foldr_reverse] at this
  exact this

/-- C229: a table printed to a file and loaded has the same numerators; the denominators of the keys with some numerator are the
same too (found, with value 0 if never set), and other denominators are lost. One to three bytes appended to the file make no
difference. -/
theorem C229_roundtrip (ops : List (Op HKey)) (hs : ∀ o ∈ ops, SmallOp o) :
    let x := ops.foldl Hmm.apply Hmm.empty
    ∃ b, x.print = some b ∧ ∀ extra : List Nat, extra.length < 4 → ∃ y, Hmm.load (some (b ++ extra)) = some (false, y) ∧
      ∀ k i, y.getNumer k i = x.getNumer k i ∧
        ((∃ j f, x.getNumer k j = (true, f)) → y.getDenom k = (true, (x.getDenom k).2)) ∧
        ((∀ j, (x.getNumer k j).1 = false) → y.getDenom k = (false, 0)) := by
  obtain ⟨x, hxe⟩ : ∃ x, x = ops.foldl Hmm.apply Hmm.empty := ⟨_, rfl⟩
  have hx : Fits x := by rw [hxe]; exact fits_reach ops hs
  have hfound : ∀ k i, (x.getNumer k i).1 = false → x.getNumer k i = (false, 0) := by
    intro k i h
    have := (C229_history ops k i).1
    rw [← hxe] at this
    rw [this] at h ⊢
    split at h
    · cases h
    · rfl
  rw [← hxe]
  dsimp only
  refine ⟨encRecs x.recs, by unfold Hmm.print; rw [if_pos (fits_iff hx)], fun extra he => ?_⟩
  have hrd : readFile 3 (encRecs x.recs ++ extra) = some x.recs := readFile_ok 3 _ (by
    intro r hr
    obtain ⟨p, s, i, hk, _⟩ := (mem_recs hx r).1 hr
    rw [hk]; rfl) extra he
  refine ⟨x.recs.foldl Hmm.setRec Hmm.empty, ?_, ?_⟩
  · unfold Hmm.load
    dsimp only
    rw [hrd]; rfl
  · intro k i
    rw [foldl_setRec]
    have h1 := C229_history ((x.recs.map hEnt).map fun r => Op.both r.k r.i r.n r.d) k i
    rw [← List.map_reverse] at h1
    rw [h1.1, h1.2]
    have hmem : ∀ e, e ∈ (x.recs.map hEnt).reverse ↔ x.getNumer e.k e.i = (true, e.n) ∧ e.d = (x.getDenom e.k).2 := by
      intro e
      rw [List.mem_reverse, List.mem_map]
      constructor
      · rintro ⟨r, hr, rfl⟩
        obtain ⟨p, s, j, hk, h2, h3⟩ := (mem_recs hx r).1 hr
        unfold hEnt
        rw [hk]
        exact ⟨h2, h3⟩
      · rintro ⟨h2, h3⟩
        exact ⟨⟨[e.k.prev, e.k.slen, e.i], e.n, e.d⟩, (mem_recs hx _).2 ⟨_, _, _, rfl, h2, h3⟩, rfl⟩
    obtain ⟨k1, k2, k3, k4⟩ := ent_spec k i (x.recs.map hEnt).reverse (by
      rw [List.map_reverse, List.nodup_reverse, List.map_map]
      have hn := recs_nodup hx
      rw [List.nodup_iff_pairwise_ne, List.pairwise_map] at hn ⊢
      refine (List.Pairwise.and_mem.1 hn).imp ?_
      rintro a b ⟨ha, hb, hab⟩ heq
      obtain ⟨p, s, j, hk, _⟩ := (mem_recs hx a).1 ha
      obtain ⟨p', s', j', hk', _⟩ := (mem_recs hx b).1 hb
      apply hab
      dsimp only [Function.comp, hEnt] at heq
      rw [hk, hk'] at heq ⊢
      simp only [List.getD_cons_zero, List.getD_cons_succ, Prod.mk.injEq, HKey.mk.injEq] at heq
      rw [heq.1.1, heq.1.2, heq.2]) (by
      intro a ha b hb hab
      rw [((hmem a).1 ha).2, ((hmem b).1 hb).2, hab])
    refine ⟨?_, ?_, ?_⟩
    · cases hb : (x.getNumer k i).1 with
      | false =>
        rw [k2 (by
          rintro e he ⟨e1, e2⟩
          have := ((hmem e).1 he).1
          rw [e1, e2] at this
          rw [this] at hb
          cases hb), hfound k i hb]
      | true =>
        have he : x.getNumer k i = (true, (x.getNumer k i).2) := Prod.ext hb rfl
        rw [k1 ⟨k, i, (x.getNumer k i).2, (x.getDenom k).2⟩ ((hmem _).2 ⟨he, rfl⟩) rfl rfl]
        exact he.symm
    · rintro ⟨j, f, hf⟩
      rw [k3 ⟨k, j, f, (x.getDenom k).2⟩ ((hmem _).2 ⟨hf, rfl⟩) rfl]
    · intro h
      rw [k4 (by
        intro e he e1
        have := ((hmem e).1 he).1
        rw [e1] at this
        have h2 := h e.i
        rw [this] at h2
        cases h2)]

/-- C229: a missing file is an error and leaves an empty table; a file that ends within a record (after its first field) makes the
loader use values that were not read. -/
theorem C229_bad_file :
    Hmm.load none = some (true, Hmm.empty) ∧
    ∀ (l : List FRec) (cut : List Nat), (∀ r ∈ l, r.key.length = 3) → 4 ≤ cut.length → cut.length < 20 →
      Hmm.load (some (encRecs l ++ cut)) = none := by
  refine ⟨rfl, fun l cut hl h1 h2 => ?_⟩
  unfold Hmm.load
  dsimp only
  rw [readFile_cut 3 l hl cut h1 h2]; rfl

/-! ### C230 -/

def Ibm2.apply (x : Ibm2) : Op AKey → Ibm2
  | .numer k i f => x.setNumer k i f
  | .denom k d => x.setDenom k d
  | .both k i n d => x.setNumDen k i n d
  | .clear => Ibm2.empty

theorem ibm2_getNumer (x : Ibm2) (k : AKey) (i : UInt32) : x.getNumer k i = found (AMap.lk (x.numer.getD i.toNat []) k) := by
  unfold Ibm2.getNumer
  split
  · rw [getD_short x.numer _ _ (by omega)]; rfl
  · rfl

theorem ibm2_getNumer_setNumer (x : Ibm2) (k : AKey) (i f : UInt32) (k' : AKey) (i' : UInt32) :
    (x.setNumer k i f).getNumer k' i' = if k = k' ∧ i = i' then (true, f) else x.getNumer k' i' := by
  rw [ibm2_getNumer, ibm2_getNumer]
  unfold Ibm2.setNumer
  dsimp only
  rw [getD_grow_set, getD_grow]
  by_cases hi : i'.toNat = i.toNat
  · have hii : i = i' := UInt32.toNat_inj.1 hi.symm
    subst hii
    rw [if_pos rfl]
    by_cases hk : k' = k
    · subst hk; rw [AMap.lk_put_self, if_pos ⟨rfl, rfl⟩]; rfl
    · rw [AMap.lk_put_ne _ _ hk, if_neg (fun h => hk h.1.symm)]
  · rw [if_neg hi, if_neg (fun h => hi (by rw [h.2]))]

theorem ibm2_getDenom_setDenom (x : Ibm2) (k : AKey) (f : UInt32) (k' : AKey) :
    (x.setDenom k f).getDenom k' = if k = k' then (true, f) else x.getDenom k' := by
  unfold Ibm2.getDenom Ibm2.setDenom
  dsimp only
  by_cases hk : k' = k
  · subst hk; rw [AMap.lk_put_self, if_pos rfl]; rfl
  · rw [AMap.lk_put_ne _ _ hk, if_neg (fun h => hk h.symm)]

theorem ibm2_hist (ops : List (Op AKey)) : ∀ k i,
    ((ops.foldr (fun o x => Ibm2.apply x o) Ibm2.empty).getNumer k i = found (lastNum k i ops)) ∧
    ((ops.foldr (fun o x => Ibm2.apply x o) Ibm2.empty).getDenom k = found (lastDen k ops)) := by
  induction ops with
  | nil => intro k i; exact ⟨rfl, rfl⟩
  | cons o ops ih =>
    intro k i
    obtain ⟨i1, i2⟩ := ih k i
    rw [List.foldr_cons]
    generalize ops.foldr (fun o x => Ibm2.apply x o) Ibm2.empty = y at i1 i2 ⊢
    cases o with
    | numer k' i' f =>
      refine ⟨?_, i2⟩
      dsimp only [Ibm2.apply, lastNum]
      rw [ibm2_getNumer_setNumer, i1]
      split <;> rfl
    | denom k' d =>
      refine ⟨i1, ?_⟩
      dsimp only [Ibm2.apply, lastDen]
      rw [ibm2_getDenom_setDenom, i2]
      split <;> rfl
    | both k' i' n d =>
      dsimp only [Ibm2.apply, lastDen, lastNum, Ibm2.setNumDen]
      rw [show ((y.setNumer k' i' n).setDenom k' d).getNumer k i = (y.setNumer k' i' n).getNumer k i from rfl,
        ibm2_getNumer_setNumer, i1, ibm2_getDenom_setDenom, show (y.setNumer k' i' n).getDenom k = y.getDenom k from rfl, i2]
      refine ⟨?_, ?_⟩ <;> split <;> rfl
    | clear => exact ⟨rfl, rfl⟩

/-- C230: after any calls the numerator of a target position, source and target lengths and source position is the last one set
since the last `clear`, and not found if none was set; the same holds of denominators. -/
theorem C230_history (ops : List (Op AKey)) (k : AKey) (i : UInt32) :
    (ops.foldl Ibm2.apply Ibm2.empty).getNumer k i = (match lastNum k i ops.reverse with | some f => (true, f) | none => (false, 0)) ∧
    (ops.foldl Ibm2.apply Ibm2.empty).getDenom k = (match lastDen k ops.reverse with | some f => (true, f) | none => (false, 0)) := by
  have := ibm2_hist ops.reverse k i
  rw [List.foldr_reverse] at this
  exact this

/-- Tables whose hash tables have one element per key and a number of positions that can be printed. -/
def IOk (x : Ibm2) : Prop := x.numer.length < 2 ^ 32 ∧ ∀ i, AMap.Distinct (x.numer.getD i [])

/-- Calls with source positions less than the largest 32-bit number. -/
def SmallPos : Op AKey → Prop
  | .numer _ i _ => Small i
  | .both _ i _ _ => Small i
  | .denom _ _ => True
  | .clear => True

theorem iok_setNumer {x : Ibm2} (h : IOk x) (k : AKey) (i f : UInt32) (hi : Small i) : IOk (x.setNumer k i f) := by
  unfold Small at hi
  unfold Ibm2.setNumer
  refine ⟨?_, ?_⟩
  · dsimp only
    rw [List.length_set, length_grow]
    have := h.1
    omega
  · intro j
    dsimp only
    rw [getD_grow_set, getD_grow]
    split
    · exact AMap.distinct_put (h.2 _) k f
    · exact h.2 j

theorem iok_empty : IOk Ibm2.empty := ⟨by decide, fun i => by
  rw [show Ibm2.empty.numer = [] from rfl, getD_short _ _ _ (by simp)]; exact AMap.distinct_nil⟩

theorem iok_reach (ops : List (Op AKey)) (h : ∀ o ∈ ops, SmallPos o) : IOk (ops.foldl Ibm2.apply Ibm2.empty) := by
  have : ∀ x, IOk x → IOk (ops.foldl Ibm2.apply x) := by
    induction ops with
    | nil => intro x hx; exact hx
    | cons o ops ih =>
      intro x hx
      rw [List.foldl_cons]
      apply ih fun o' ho' => h o' (List.mem_cons_of_mem _ ho')
      have ho := h o List.mem_cons_self
      cases o with
      | numer k i f => exact iok_setNumer hx k i f ho
      | denom k d => exact hx
      | both k i n d => exact iok_setNumer hx k i n ho
      | clear => exact iok_empty
  exact this _ iok_empty

/-- The entry of a record of the file. -/
def aEnt (r : FRec) : Ent AKey := ⟨⟨r.key.getD 0 0, r.key.getD 1 0, r.key.getD 2 0⟩, r.key.getD 3 0, r.num, r.den⟩

theorem mem_irecs {x : Ibm2} (hx : IOk x) (ord : Nat → List (AKey × UInt32)) (ho : ∀ i, (ord i).Perm (x.numer.getD i [])) (r : FRec) :
    (r ∈ (List.range x.numer.length).flatMap fun i => x.rowRecs i (ord i)) ↔ ∃ (k : AKey) (i : UInt32),
      r.key = [k.j, k.slen, k.tlen, i] ∧ x.getNumer k i = (true, r.num) ∧ r.den = (x.getDenom k).2 := by
  rw [List.mem_flatMap]
  constructor
  · rintro ⟨i, hi, hr⟩
    rw [List.mem_range] at hi
    obtain ⟨e, he, rfl⟩ := List.mem_map.1 hr
    refine ⟨e.1, UInt32.ofNat i, rfl, ?_, rfl⟩
    rw [ibm2_getNumer, toNat_of _ (Nat.lt_trans hi hx.1), (AMap.lk_some_iff (hx.2 i)).2 ((ho i).mem_iff.1 he)]
    rfl
  · rintro ⟨k, i, hk, hn, hd⟩
    rw [ibm2_getNumer] at hn
    cases hl : AMap.lk (x.numer.getD i.toNat []) k with
    | none => rw [hl] at hn; cases congrArg Prod.fst hn
    | some f =>
      have hf : f = r.num := by rw [hl] at hn; exact congrArg Prod.snd hn
      subst hf
      have hi : i.toNat < x.numer.length := by
        apply Classical.byContradiction
        intro h
        rw [getD_short _ i.toNat _ h] at hl
        cases hl
      refine ⟨i.toNat, List.mem_range.2 hi, List.mem_map.2 ⟨(k, r.num), (ho _).mem_iff.2 ((AMap.lk_some_iff (hx.2 _)).1 hl), ?_⟩⟩
      rw [ofNat_of]
      cases r
      dsimp only at hk hd ⊢
      rw [hk, hd]

theorem irecs_nodup {x : Ibm2} (hx : IOk x) (ord : Nat → List (AKey × UInt32)) (ho : ∀ i, (ord i).Perm (x.numer.getD i [])) :
    (((List.range x.numer.length).flatMap fun i => x.rowRecs i (ord i)).map fun r => ((aEnt r).k, (aEnt r).i)).Nodup := by
  rw [List.map_flatMap, List.nodup_flatMap]
  refine ⟨?_, ?_⟩
  · intro i _
    unfold Ibm2.rowRecs
    rw [List.map_map]
    have hd : ((ord i).map Prod.fst).Nodup := ((ho i).map _).nodup_iff.2 (hx.2 i)
    have e : ((fun r => ((aEnt r).k, (aEnt r).i)) ∘ fun e : AKey × UInt32 =>
        (⟨[e.1.j, e.1.slen, e.1.tlen, UInt32.ofNat i], e.2, (x.getDenom e.1).2⟩ : FRec)) =
        (fun k => (k, UInt32.ofNat i)) ∘ Prod.fst := rfl
    rw [e, ← List.map_map]
    exact hd.map (fun a b h => (Prod.mk.inj h).1)
  · refine (List.Pairwise.and_mem.1 (List.nodup_iff_pairwise_ne.1 List.nodup_range)).imp ?_
    rintro a b ⟨ha, hb, hab⟩ k hk hk'
    dsimp only at hk hk'
    rw [List.mem_map] at hk hk'
    obtain ⟨r, hr, rfl⟩ := hk
    obtain ⟨r', hr', he⟩ := hk'
    obtain ⟨e, _, rfl⟩ := List.mem_map.1 hr
    obtain ⟨e', _, rfl⟩ := List.mem_map.1 hr'
    have h2 : UInt32.ofNat b = UInt32.ofNat a := (Prod.mk.inj he).2
    apply hab
    rw [← toNat_of a (Nat.lt_trans (List.mem_range.1 ha) hx.1), ← toNat_of b (Nat.lt_trans (List.mem_range.1 hb) hx.1), h2]

theorem ifoldl_setRec (l : List FRec) (x : Ibm2) :
    l.foldl Ibm2.setRec x = ((l.map aEnt).map fun r => Op.both r.k r.i r.n r.d).foldl Ibm2.apply x := by
  rw [List.map_map, List.foldl_map]
  rfl

/-- C230: whatever the order of the hash tables, a table printed to a file and loaded has the same numerators; the denominators of
the keys with some numerator are the same too (found, with value 0 if never set), and other denominators are lost. -/
theorem C230_roundtrip (ops : List (Op AKey)) (hs : ∀ o ∈ ops, SmallPos o) :
    let x := ops.foldl Ibm2.apply Ibm2.empty
    (∃ b, x.Prints b) ∧ ∀ b, x.Prints b → ∀ extra : List Nat, extra.length < 4 → ∃ y, Ibm2.load (some (b ++ extra)) = some (false, y) ∧
      ∀ k i, y.getNumer k i = x.getNumer k i ∧
        ((∃ j f, x.getNumer k j = (true, f)) → y.getDenom k = (true, (x.getDenom k).2)) ∧
        ((∀ j, (x.getNumer k j).1 = false) → y.getDenom k = (false, 0)) := by
  obtain ⟨x, hxe⟩ : ∃ x, x = ops.foldl Ibm2.apply Ibm2.empty := ⟨_, rfl⟩
  have hx : IOk x := by rw [hxe]; exact iok_reach ops hs
  have hfound : ∀ k i, (x.getNumer k i).1 = false → x.getNumer k i = (false, 0) := by
    intro k i h
    have := (C230_history ops k i).1
    rw [← hxe] at this
    rw [this] at h ⊢
    split at h
    · cases h
    · rfl
  rw [← hxe]
  dsimp only
  refine ⟨⟨_, hx.1, fun i => x.numer.getD i [], fun i => List.Perm.refl _, rfl⟩, ?_⟩
  rintro b ⟨_, ord, ho, rfl⟩ extra he
  have hmr := mem_irecs hx ord ho
  have hnd := irecs_nodup hx ord ho
  generalize ((List.range x.numer.length).flatMap fun i => x.rowRecs i (ord i)) = recs at hmr hnd
  have hrd : readFile 4 (encRecs recs ++ extra) = some recs := readFile_ok 4 _ (by
    intro r hr
    obtain ⟨k, i, hk, _⟩ := (hmr r).1 hr
    rw [hk]; rfl) extra he
  refine ⟨recs.foldl Ibm2.setRec Ibm2.empty, ?_, ?_⟩
  · unfold Ibm2.load
    dsimp only
    rw [hrd]; rfl
  · intro k i
    rw [ifoldl_setRec]
    have h1 := C230_history ((recs.map aEnt).map fun r => Op.both r.k r.i r.n r.d) k i
    rw [← List.map_reverse] at h1
    rw [h1.1, h1.2]
    have hmem : ∀ e, e ∈ (recs.map aEnt).reverse ↔ x.getNumer e.k e.i = (true, e.n) ∧ e.d = (x.getDenom e.k).2 := by
      intro e
      rw [List.mem_reverse, List.mem_map]
      constructor
      · rintro ⟨r, hr, rfl⟩
        obtain ⟨k', j, hk, h2, h3⟩ := (hmr r).1 hr
        unfold aEnt
        rw [hk]
        exact ⟨h2, h3⟩
      · rintro ⟨h2, h3⟩
        exact ⟨⟨[e.k.j, e.k.slen, e.k.tlen, e.i], e.n, e.d⟩, (hmr _).2 ⟨_, _, rfl, h2, h3⟩, rfl⟩
    obtain ⟨k1, k2, k3, k4⟩ := ent_spec k i (recs.map aEnt).reverse (by
      rw [List.map_reverse, List.nodup_reverse, List.map_map]
      exact hnd) (by
      intro a ha b hb hab
      rw [((hmem a).1 ha).2, ((hmem b).1 hb).2, hab])
    refine ⟨?_, ?_, ?_⟩
    · cases hb : (x.getNumer k i).1 with
      | false =>
        rw [k2 (by
          rintro e he ⟨e1, e2⟩
          have := ((hmem e).1 he).1
          rw [e1, e2] at this
          rw [this] at hb
          cases hb), hfound k i hb]
      | true =>
        have he : x.getNumer k i = (true, (x.getNumer k i).2) := Prod.ext hb rfl
        rw [k1 ⟨k, i, (x.getNumer k i).2, (x.getDenom k).2⟩ ((hmem _).2 ⟨he, rfl⟩) rfl rfl]
        exact he.symm
    · rintro ⟨j, f, hf⟩
      rw [k3 ⟨k, j, f, (x.getDenom k).2⟩ ((hmem _).2 ⟨hf, rfl⟩) rfl]
    · intro h
      rw [k4 (by
        intro e he e1
        have := ((hmem e).1 he).1
        rw [e1] at this
        have h2 := h e.i
        rw [this] at h2
        cases h2)]

/-- C230: a missing file is an error and leaves an empty table; a file that ends within a record makes the loader use values that
were not read. -/
theorem C230_bad_file :
    Ibm2.load none = some (true, Ibm2.empty) ∧
    ∀ (l : List FRec) (cut : List Nat), (∀ r ∈ l, r.key.length = 4) → 4 ≤ cut.length → cut.length < 24 →
      Ibm2.load (some (encRecs l ++ cut)) = none := by
  refine ⟨rfl, fun l cut hl h1 h2 => ?_⟩
  unfold Ibm2.load
  dsimp only
  rw [readFile_cut 4 l hl cut h1 h2]; rfl

end Thot.AligTab
