import Verif.HatTable.Props
/-! C156 (agreement with the STL table, limits), C158: iteration over the target phrases. -/
namespace Thot.HatTable
open AMap Thot.LevelDb

/-- **C156 (same as the STL table).** For every history of calls of the phrase-table interface (increments, additions and
queries) that the STL table executes, both tables give the same counts, probabilities and pair information for all legal
phrases, and the same entries for a target phrase. -/
theorem C156_stl (os : List PhrTable.Op) (m : PhrTable.Table) (hr : PhrTable.run PhrTable.empty os = some m)
    (ho : ∀ o ∈ os.filterMap toHat, OpOk o) (s t : Phrase) (hs : Ok s) (ht : Ok t) (hn : t ≠ []) :
    cSrc (run (os.filterMap toHat)) s = PhrTable.cSrc m s ∧ cTrg (run (os.filterMap toHat)) t = PhrTable.cTrg m t ∧
    cSrcTrg (run (os.filterMap toHat)) s t = (PhrTable.cSrcTrg m s t).1 ∧
    pTrgGivenSrc (run (os.filterMap toHat)) s t = (PhrTable.pTrgGivenSrc m s t).1 ∧
    pSrcGivenTrg (run (os.filterMap toHat)) s t = (PhrTable.pSrcGivenTrg m s t).1 ∧
    infSrcTrg (run (os.filterMap toHat)) s t = (PhrTable.infSrcTrg m s t).1 ∧
    (∀ es b m', PhrTable.getEntriesForTarget m t = some ((es, b), m') →
      ∃ es', getEntriesForTarget (run (os.filterMap toHat)) t = some (es', b) ∧ ∀ x, x ∈ es' ↔ x ∈ es) := by
  obtain ⟨h1, h2, h3⟩ := stl_ref os (r := Ref.empty) PhrTable.inv_empty (fun _ => rfl) (fun _ => rfl) (fun _ _ => rfl) hr
  have hi := PhrTable.run_inv os PhrTable.inv_empty hr
  obtain ⟨_, _, _, e1, e2, e3, e4, _⟩ := C156_lookups _ ho _ (.refl _) s t hs ht hn
  have f1 : cSrc (run (os.filterMap toHat)) s = PhrTable.S m s := by
    rw [e1]; unfold PhrTable.S; rw [h1]; rfl
  have f2 : cTrg (run (os.filterMap toHat)) t = PhrTable.T m t := by rw [e2, h2]; rfl
  have f3 : cSrcTrg (run (os.filterMap toHat)) s t = PhrTable.ST m s t := by
    rw [e3]; unfold PhrTable.ST; rw [h3]; rfl
  refine ⟨f1, f2, ?_, ?_, ?_, ?_, ?_⟩
  · rw [f3, PhrTable.cSrcTrg_eq hi]
  · rw [PhrTable.pTrg_eq hi]
    unfold pTrgGivenSrc
    rw [f1, f3]
    simp only [smooth, PhrTable.smooth]
    split <;> split <;> grind
  · rw [PhrTable.pSrc_eq hi]
    unfold pSrcGivenTrg
    rw [f2, f3]
    simp only [smooth, PhrTable.smooth]
    split <;> split <;> grind
  · rw [PhrTable.inf_eq hi, e4]
    have g1 : lk m.src s = (ref (os.filterMap toHat)).s s := h1 s
    have g3 : lk m.st (s, t) = (ref (os.filterMap toHat)).st s t := h3 s t
    simp only [PhrTable.S, PhrTable.ST, ← g1, ← g3]
    cases k1 : lk m.src s with
    | none => rw [PhrTable.st_none hi k1]; rfl
    | some c => cases k2 : lk m.st (s, t) <;> rfl
  · intro es b m' he
    obtain ⟨es', k1, k2, _⟩ := C157_target _ ho _ (.refl _) t ht hn
    have hne : m.src ≠ [] := by
      intro hc
      unfold PhrTable.getEntriesForTarget at he
      rw [hc] at he
      cases he
    have hes := PhrTable.entriesForTarget_eq hi hne t
    rw [hes] at he
    simp only [Option.some.injEq, Prod.mk.injEq] at he
    obtain ⟨⟨rfl, rfl⟩, _⟩ := he
    have hmem : ∀ x, x ∈ es' ↔ x ∈ PhrTable.targetEntries m t := by
      intro x
      rw [k2]
      unfold TrgEntry PhrTable.targetEntries
      have g1 : lk m.src x.1 = (ref (os.filterMap toHat)).s x.1 := h1 _
      have g3 : lk m.st (x.1, t) = (ref (os.filterMap toHat)).st x.1 t := h3 _ _
      rw [← g1, ← g3]
      simp only [List.mem_filterMap, List.mem_filter, decide_eq_true_eq]
      constructor
      · rintro ⟨p1, p2, p3, p4⟩
        refine ⟨((x.1, t), x.2.2), ⟨(lk_some_iff hi.dst).1 p2, rfl⟩, ?_⟩
        unfold PhrTable.srcEntry
        simp only [p1, Option.getD_some]
        rw [if_neg]
        rintro (hc | hc)
        · exact p3 hc
        · exact p4 hc
      · rintro ⟨e, ⟨q1, q2⟩, q3⟩
        unfold PhrTable.srcEntry at q3
        simp only [] at q3
        split at q3
        · cases q3
        · next hz =>
          injection q3 with q3
          subst q3
          obtain ⟨⟨a, b⟩, c⟩ := e
          simp only at q2
          subst q2
          have hsome := hi.src _ q1
          simp only at hsome
          obtain ⟨cs, hcs⟩ := Option.isSome_iff_exists.1 hsome
          simp only [hcs, Option.getD_some] at hz ⊢
          exact ⟨trivial, (lk_some_iff hi.dst).2 q1, fun hc => hz (.inl hc), fun hc => hz (.inr hc)⟩
    refine ⟨es', ?_, hmem⟩
    rw [k1]
    congr 2
    cases h5 : es' with
    | nil =>
      cases h6 : PhrTable.targetEntries m t with
      | nil => rfl
      | cons a r => have := (hmem a).2 (by rw [h6]; exact List.mem_cons_self ..); rw [h5] at this; cases this
    | cons a r =>
      cases h6 : PhrTable.targetEntries m t with
      | nil => have := (hmem a).1 (by rw [h5]; exact List.mem_cons_self ..); rw [h6] at this; cases this
      | cons _ _ => rfl

/-! Each restriction on phrases is needed. -/

/-- The reserved word: a pair increment is visible as a count of an unrelated target phrase. -/
theorem C156_reserved_word : cTrg (run [.incr [5] [4] 1]) [4, 2, 5] = 1 ∧
    (ref [.incr [5] [4] 1]).t [4, 2, 5] = none := by decide +kernel

/-- The empty target phrase: its pair count overwrites the source count. -/
theorem C156_empty_target : cSrc (run [.incr [5] [4] 3, .incr [5] [] 1]) [5] = 4 ∧
    cSrcTrg (run [.incr [5] [4] 3, .incr [5] [] 1]) [5] [] = 4 ∧ ((ref [.incr [5] [4] 3, .incr [5] [] 1]).st [5] []) = some 1 := by
  decide +kernel

/-- Large indices: word 254^3+5 is confused with word 5. -/
theorem C156_large_index : cSrc (run [.incr [254 ^ 3 + 5] [4] 1]) [5] = 1 ∧ (ref [.incr [254 ^ 3 + 5] [4] 1]).s [5] = none := by
  decide +kernel

/-- Non-vacuity. -/
example : (∀ o ∈ [Op.incr [3, 5] [4] 2, .add [3] [4, 6] 5 3, .addTrg [7] 1, .incr [3] [4] 1], OpOk o) ∧
    getEntriesForTarget (run [Op.incr [3, 5] [4] 2, .add [3] [4, 6] 5 3, .addTrg [7] 1, .incr [3] [4] 1]) [4] =
      some ([([3], (6, 1)), ([3, 5], (2, 2))], true) ∧
    getEntriesForSource (run [Op.incr [3, 5] [4] 2, .add [3] [4, 6] 5 3, .addTrg [7] 1, .incr [3] [4] 1]) [3] =
      some ([([4], (3, 1)), ([4, 6], (3, 3))], true) := by
  refine ⟨?_, by decide +kernel, by decide +kernel⟩
  intro o ho
  simp only [List.mem_cons, List.not_mem_nil, or_false] at ho
  rcases ho with rfl | rfl | rfl | rfl
  · exact ⟨ok_of (by decide), ok_of (by decide), by simp⟩
  · exact ⟨ok_of (by decide), ok_of (by decide), by simp⟩
  · exact ⟨ok_of (by decide), by simp⟩
  · exact ⟨ok_of (by decide), ok_of (by decide), by simp⟩

/-! ### C158 -/

/-- The target phrase of an element of the trie, if it is a target record. -/
def trgOf (e : Bytes × Rat) : Option (Phrase × Rat) :=
  match stringToVector 3 e.1 with
  | none => none
  | some v => if isTargetPhrase v then some (v, e.2) else none

theorem isTarget_form {v : Phrase} (h : Form v) : isTargetPhrase v = true ↔ Ok v ∧ v ≠ [] := by
  have : isTargetPhrase v = true ↔ unusedWord ∉ v := by
    simp only [isTargetPhrase, List.all_eq_true, bne_iff_ne, ne_eq]
    exact ⟨fun h hc => h _ hc rfl, fun h w hw hc => h (hc ▸ hw)⟩
  rw [this]
  constructor
  · intro hu
    rcases h with ⟨s, hs, rfl⟩ | h | ⟨s, t, _, _, _, rfl⟩
    · exact absurd (by simp [encodeSrc]) hu
    · exact h
    · exact absurd (by simp [encodeTrgSrc]) hu
  · rintro ⟨h, _⟩; exact h.2

/-- Every key of the list decodes. -/
def Decodes (m : Trie) : Prop := ∀ e ∈ m, ∃ v, stringToVector 3 e.1 = some v

theorem nextLoop_spec : ∀ (m : Trie), Decodes m →
    ∃ p, nextLoop m = some p ∧ p.length ≤ m.length ∧ Decodes p ∧
      (m.filterMap trgOf).filter (fun x => x.2 != 0) = (p.filterMap trgOf).filter (fun x => x.2 != 0) ∧
      (p = [] ∨ ∃ e r v, p = e :: r ∧ stringToVector 3 e.1 = some v ∧ trgOf e = some (v, e.2) ∧ e.2 ≠ 0)
  | [], _ => ⟨[], rfl, Nat.le_refl _, (by intro e he; cases he), rfl, .inl rfl⟩
  | e :: r, hd => by
    obtain ⟨v, hv⟩ := hd e (List.mem_cons_self ..)
    rw [nextLoop, hv]
    simp only []
    by_cases hc : (!isTargetPhrase v || e.2 == 0) = true
    · rw [if_pos hc]
      obtain ⟨p, h1, h2, h3, h4, h5⟩ := nextLoop_spec r (fun e he => hd e (List.mem_cons_of_mem _ he))
      refine ⟨p, h1, by rw [List.length_cons]; omega, h3, ?_, h5⟩
      rw [← h4, List.filterMap_cons]
      have ht : trgOf e = if isTargetPhrase v then some (v, e.2) else none := by simp only [trgOf, hv]
      rw [ht]
      by_cases hz : isTargetPhrase v = true
      · rw [hz] at hc
        have hz2 : e.2 = 0 := by simpa using hc
        simp [hz, hz2]
      · simp [hz]
    · rw [if_neg hc]
      simp only [Bool.or_eq_true, Bool.not_eq_true', beq_iff_eq, not_or, Bool.not_eq_false] at hc
      refine ⟨e :: r, rfl, Nat.le_refl _, hd, rfl, .inr ⟨e, r, v, rfl, hv, ?_, hc.2⟩⟩
      simp only [trgOf, hv, hc.1, if_true]

theorem visitFrom_spec : ∀ (fuel : Nat) (e : Bytes × Rat) (r : Trie) (v : Phrase), Decodes (e :: r) → r.length < fuel →
    stringToVector 3 e.1 = some v →
    visitFrom fuel (e :: r) = some ((v, e.2) :: (r.filterMap trgOf).filter (fun x => x.2 != 0))
  | 0, _, _, _, _, h, _ => by omega
  | fuel + 1, e, r, v, hd, hf, hv => by
    obtain ⟨p, h1, h2, h3, h4, h5⟩ := nextLoop_spec r (fun e he => hd e (List.mem_cons_of_mem _ he))
    rw [visitFrom]
    simp only [deref, hv, Option.map_some, next, h1]
    rcases h5 with rfl | ⟨e', r', v', rfl, hv', ht', hz'⟩
    · rw [h4]
      cases fuel <;> simp [visitFrom]
    · rw [visitFrom_spec fuel e' r' v' h3 (by rw [List.length_cons] at h2; omega) hv']
      rw [h4, List.filterMap_cons, ht']
      simp [hz']

theorem begin_spec : ∀ (m : Trie), Decodes m →
    (m.filterMap trgOf = [] → begin m = none) ∧
    (m.filterMap trgOf ≠ [] → ∃ e r v, begin m = some (e :: r) ∧ stringToVector 3 e.1 = some v ∧ Decodes (e :: r) ∧
      m.filterMap trgOf = (v, e.2) :: r.filterMap trgOf)
  | [], _ => ⟨fun _ => rfl, fun h => absurd rfl h⟩
  | e :: r, hd => by
    obtain ⟨v, hv⟩ := hd e (List.mem_cons_self ..)
    obtain ⟨i1, i2⟩ := begin_spec r (fun e he => hd e (List.mem_cons_of_mem _ he))
    have ht : trgOf e = if isTargetPhrase v then some (v, e.2) else none := by simp only [trgOf, hv]
    rw [begin, hv, List.filterMap_cons, ht]
    by_cases hz : isTargetPhrase v = true
    · simp only [hz, if_true]
      exact ⟨fun h => (by cases h), fun _ => ⟨e, r, v, rfl, hv, hd, rfl⟩⟩
    · simp only [hz, Bool.false_eq_true, if_false]
      exact ⟨i1, i2⟩

/-- **C158 (partial).** For every history and every iteration order of the trie: the loop from `begin()` to `end()` visits
recorded target phrases only, each at most once and with its count, all those with a nonzero count, and of those with a
zero count at most one, in first place. It is undefined exactly when no target phrase is recorded. Missing with respect to
`C158_full`: defined on an empty table. -/
theorem C158_partial (os : List Op) (ho : ∀ o ∈ os, OpOk o) (m : Trie) (hm : m.Perm (run os)) :
    (visit m = none ↔ ∀ t, (ref os).t t = none) ∧
    ∀ vs, visit m = some vs →
      (∀ x ∈ vs, (ref os).t x.1 = some x.2) ∧ (vs.map Prod.fst).Nodup ∧
      (∀ t c, (ref os).t t = some c → c ≠ 0 → (t, c) ∈ vs) ∧ (∀ x ∈ vs.tail, x.2 ≠ 0) := by
  have h := inv_perm (inv_run os ho) hm
  have hdec : Decodes m := by
    intro e he
    obtain ⟨v, hv, hk⟩ := h.keys e he
    exact ⟨v, by rw [hk]; exact C28_decode 3 (by omega) v (form_fits hv)⟩
  have hmem : ∀ t c, (t, c) ∈ m.filterMap trgOf ↔ (ref os).t t = some c := by
    intro t c
    rw [List.mem_filterMap]
    constructor
    · rintro ⟨e, he, hx⟩
      obtain ⟨v, hv, hk⟩ := h.keys e he
      have hd : stringToVector 3 e.1 = some v := by rw [hk]; exact C28_decode 3 (by omega) v (form_fits hv)
      simp only [trgOf, hd] at hx
      split at hx
      · next hz =>
        simp only [Option.some.injEq, Prod.mk.injEq] at hx
        obtain ⟨rfl, rfl⟩ := hx
        obtain ⟨hok, hn⟩ := (isTarget_form hv).1 hz
        rw [← h.trg v hok hn, lk_some_iff h.distinct, ← hk]; exact he
      · cases hx
    · intro hc
      obtain ⟨hok, hn⟩ := h.dtrg t c hc
      rw [← h.trg t hok hn, lk_some_iff h.distinct] at hc
      refine ⟨_, hc, ?_⟩
      simp only [trgOf, C28_decode 3 (by omega) t hok.1]
      rw [if_pos ((isTarget_form (.inr (.inl ⟨hok, hn⟩))).2 ⟨hok, hn⟩)]
  have hnd : ((m.filterMap trgOf).map Prod.fst).Nodup := by
    rw [List.map_filterMap, List.Nodup, List.pairwise_filterMap]
    have hd2 : m.Pairwise (fun a b => a.1 ≠ b.1) := List.pairwise_map.1 h.distinct
    refine List.Pairwise.imp_of_mem ?_ hd2
    intro a b ha hb hne x hx y hy hxy
    apply hne
    obtain ⟨va, hva, hka⟩ := h.keys a ha
    obtain ⟨vb, hvb, hkb⟩ := h.keys b hb
    have key1 : ∀ (e : Bytes × Rat) v, Form v → e.1 = key v → ∀ x, (trgOf e).map Prod.fst = some x → x = v := by
      intro e v hv hk x hx
      have hd : stringToVector 3 e.1 = some v := by rw [hk]; exact C28_decode 3 (by omega) v (form_fits hv)
      simp only [trgOf, hd] at hx
      split at hx
      · simpa using hx.symm
      · cases hx
    rw [hka, hkb, ← key1 a va hva hka x hx, ← key1 b vb hvb hkb y hy, hxy]
  obtain ⟨b1, b2⟩ := begin_spec m hdec
  by_cases hz : m.filterMap trgOf = []
  · have hb := b1 hz
    have hv : visit m = none := by unfold visit; rw [hb]
    refine ⟨⟨fun _ t => ?_, fun _ => hv⟩, ?_⟩
    · cases hc : (ref os).t t with
      | none => rfl
      | some c => have := (hmem t c).2 hc; rw [hz] at this; cases this
    · intro vs hvs; rw [hv] at hvs; cases hvs
  · obtain ⟨e, r, v, hb, hdv, hdr, he⟩ := b2 hz
    have hv : visit m = some ((v, e.2) :: (r.filterMap trgOf).filter (fun x => x.2 != 0)) := by
      unfold visit; rw [hb]
      simp only []
      exact visitFrom_spec _ e r v hdr (by simp) hdv
    have hsub : ((v, e.2) :: (r.filterMap trgOf).filter (fun x => x.2 != 0)).Sublist (m.filterMap trgOf) := by
      rw [he]; exact List.filter_sublist.cons_cons _
    refine ⟨⟨fun hc => (by rw [hv] at hc; cases hc), fun hc => ?_⟩, ?_⟩
    · have : (v, e.2) ∈ m.filterMap trgOf := by rw [he]; exact List.mem_cons_self ..
      rw [hmem, hc] at this; cases this
    · intro vs hvs
      rw [hv] at hvs
      injection hvs with hvs; subst hvs
      refine ⟨fun x hx => (hmem x.1 x.2).1 (hsub.subset hx), List.Nodup.sublist (hsub.map _) hnd, ?_, ?_⟩
      · intro t c hc hne
        have := (hmem t c).2 hc
        rw [he] at this
        rcases List.mem_cons.1 this with h1 | h1
        · rw [h1]; exact List.mem_cons_self ..
        · exact List.mem_cons_of_mem _ (List.mem_filter.2 ⟨h1, by simpa using hne⟩)
      · intro x hx
        rw [List.tail_cons, List.mem_filter] at hx
        simpa using hx.2

/-- Full statement: iterating is always defined, and visits exactly the target phrases with nonzero counts. -/
def C158_full : Prop := ∀ (os : List Op), (∀ o ∈ os, OpOk o) → ∀ (m : Trie), m.Perm (run os) →
  ∃ vs, visit m = some vs ∧ ∀ t c, (t, c) ∈ vs ↔ ((ref os).t t = some c ∧ c ≠ 0)

/-- On a new table `begin()` runs past the end. -/
theorem C158_counterexample : ¬ C158_full := by
  intro h
  obtain ⟨vs, hv, _⟩ := h [] (by intro o ho; cases ho) [] (.refl _)
  cases hv

/-- A target phrase with count zero is visited when it comes first, and not otherwise. -/
theorem C158_zero_count : visit (run [.addTrg [5] 0, .addTrg [6] 1]) = some [([5], 0), ([6], 1)] ∧
    visit (run [.addTrg [6] 1, .addTrg [5] 0]) = some [([6], 1)] := by decide +kernel

/-- The number of records. -/
theorem C158_size (os : List Op) (ho : ∀ o ∈ os, OpOk o) (ss ts : List Phrase) (ps : List (Phrase × Phrase))
    (n1 : ss.Nodup) (n2 : ts.Nodup) (n3 : ps.Nodup) (h1 : ∀ s, s ∈ ss ↔ ((ref os).s s).isSome)
    (h2 : ∀ t, t ∈ ts ↔ ((ref os).t t).isSome) (h3 : ∀ p, p ∈ ps ↔ ((ref os).st p.1 p.2).isSome) :
    size (run os) = ss.length + ts.length + ps.length := by
  have h := inv_run os ho
  have okS : ∀ s ∈ ss, Ok s := by
    intro s hs
    obtain ⟨c, hc⟩ := Option.isSome_iff_exists.1 ((h1 s).1 hs)
    exact h.dsrc s c hc
  have okT : ∀ t ∈ ts, Ok t ∧ t ≠ [] := by
    intro t ht
    obtain ⟨c, hc⟩ := Option.isSome_iff_exists.1 ((h2 t).1 ht)
    exact h.dtrg t c hc
  have okP : ∀ p ∈ ps, Ok p.1 ∧ Ok p.2 ∧ p.2 ≠ [] := by
    intro p hp
    obtain ⟨c, hc⟩ := Option.isSome_iff_exists.1 ((h3 p).1 hp)
    exact h.dpair _ _ c hc
  have hp : ((run os).map Prod.fst).Perm (ss.map (fun s => key (encodeSrc s)) ++ (ts.map key ++
      ps.map (fun p => key (encodeTrgSrc p.1 p.2)))) := by
    rw [List.perm_ext_iff_of_nodup h.distinct]
    · intro k
      simp only [List.mem_append]
      constructor
      · intro hk
        obtain ⟨e, he, rfl⟩ := List.mem_map.1 hk
        obtain ⟨v, hv, hkv⟩ := h.keys e he
        have hl := (lk_some_iff h.distinct).2 (show (e.1, e.2) ∈ run os from he)
        rcases hv with ⟨s, hs, rfl⟩ | ⟨hv, hn⟩ | ⟨s, t, hs, ht, hn, rfl⟩
        · rw [hkv, h.src s hs] at hl
          exact .inl (List.mem_map.2 ⟨s, (h1 s).2 (by rw [hl]; rfl), hkv.symm⟩)
        · rw [hkv, h.trg v hv hn] at hl
          exact .inr (.inl (List.mem_map.2 ⟨v, (h2 v).2 (by rw [hl]; rfl), hkv.symm⟩))
        · rw [hkv, h.pair s t hs ht hn] at hl
          exact .inr (.inr (List.mem_map.2 ⟨(s, t), (h3 (s, t)).2 (by simp only [hl]; rfl), hkv.symm⟩))
      · have lift : ∀ k, (lk (run os) k).isSome → k ∈ (run os).map Prod.fst := by
          intro k hk
          apply Classical.byContradiction
          intro hc
          rw [lk_none_iff.2 hc] at hk; cases hk
        rintro (hk | hk | hk)
        · obtain ⟨s, hs, rfl⟩ := List.mem_map.1 hk
          exact lift _ (by rw [h.src s (okS s hs)]; exact (h1 s).1 hs)
        · obtain ⟨t, ht, rfl⟩ := List.mem_map.1 hk
          exact lift _ (by rw [h.trg t (okT t ht).1 (okT t ht).2]; exact (h2 t).1 ht)
        · obtain ⟨p, hp, rfl⟩ := List.mem_map.1 hk
          exact lift _ (by rw [h.pair p.1 p.2 (okP p hp).1 (okP p hp).2.1 (okP p hp).2.2]; exact (h3 p).1 hp)
    · rw [List.nodup_append, List.nodup_append]
      refine ⟨?_, ⟨?_, ?_, ?_⟩, ?_⟩
      · rw [List.Nodup, List.pairwise_map]
        refine List.Pairwise.imp_of_mem ?_ n1
        intro a b ha hb hne hc
        rw [key_inj (fits_src (okS a ha)) (fits_src (okS b hb))] at hc
        exact hne (by simpa [encodeSrc] using hc)
      · rw [List.Nodup, List.pairwise_map]
        refine List.Pairwise.imp_of_mem ?_ n2
        intro a b ha hb hne hc
        rw [key_inj (okT a ha).1.1 (okT b hb).1.1] at hc
        exact hne hc
      · rw [List.Nodup, List.pairwise_map]
        refine List.Pairwise.imp_of_mem ?_ n3
        intro a b ha hb hne hc
        rw [key_inj (fits_trgSrc (okP a ha).1 (okP a ha).2.1) (fits_trgSrc (okP b hb).1 (okP b hb).2.1)] at hc
        have := sep_split (okP a ha).2.1.2 (okP b hb).2.1.2 hc
        exact hne (Prod.ext this.2 this.1)
      · intro x hx y hy hxy
        obtain ⟨t, ht, rfl⟩ := List.mem_map.1 hx
        obtain ⟨p, hp, rfl⟩ := List.mem_map.1 hy
        rw [key_inj (okT t ht).1.1 (fits_trgSrc (okP p hp).1 (okP p hp).2.1)] at hxy
        exact (enc_disjoint (s' := []) (okT t ht).1 (okP p hp).2.1 (okP p hp).2.2).2.1 hxy
      · intro x hx y hy hxy
        obtain ⟨s, hs, rfl⟩ := List.mem_map.1 hx
        rcases List.mem_append.1 hy with hy | hy
        · obtain ⟨t, ht, rfl⟩ := List.mem_map.1 hy
          rw [key_inj (fits_src (okS s hs)) (okT t ht).1.1] at hxy
          exact (enc_disjoint (s' := []) (okT t ht).1 (okT t ht).1 (okT t ht).2).1 hxy.symm
        · obtain ⟨p, hp, rfl⟩ := List.mem_map.1 hy
          rw [key_inj (fits_src (okS s hs)) (fits_trgSrc (okP p hp).1 (okP p hp).2.1)] at hxy
          exact (enc_disjoint (okP p hp).2.1 (okP p hp).2.1 (okP p hp).2.2).2.2 hxy
  have := hp.length_eq
  simp only [List.length_map, List.length_append] at this
  unfold size; omega

end Thot.HatTable
