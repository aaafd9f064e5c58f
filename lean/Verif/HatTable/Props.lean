import Verif.HatTable.Lemmas
import Verif.PhrTable.Props
import Verif.Nbest.Props
/-! C156, C157: the trie phrase table. -/
namespace Thot.HatTable
open AMap Thot.LevelDb

/-! ### C156: look-ups -/

/-- **C156 (look-ups).** For every history of modifying calls with legal phrases, whatever the iteration order of the trie
(`m` is any reordering of its elements), every look-up of a legal phrase answers as three independent maps would. -/
theorem C156_lookups (os : List Op) (ho : ∀ o ∈ os, OpOk o) (m : Trie) (hm : m.Perm (run os)) (s t : Phrase) (hs : Ok s)
    (ht : Ok t) (hn : t ≠ []) :
    getSrcInfo m s = (((ref os).s s).getD 0, ((ref os).s s).isSome) ∧
    getTrgInfo m t = (((ref os).t t).getD 0, ((ref os).t t).isSome) ∧
    getSrcTrgInfo m s t = (((ref os).st s t).getD 0, ((ref os).st s t).isSome) ∧
    cSrc m s = ((ref os).s s).getD 0 ∧ cTrg m t = ((ref os).t t).getD 0 ∧ cSrcTrg m s t = ((ref os).st s t).getD 0 ∧
    infSrcTrg m s t = (match (ref os).s s, (ref os).st s t with
      | some cs, some c => ((cs, c), true)
      | some cs, none => ((cs, 0), false)
      | none, _ => ((0, 0), false)) ∧
    pTrgGivenSrc m s t = (match (ref os).s s, (ref os).st s t with
      | some cs, some c => if c > 0 ∧ cs > 0 then c / cs else 1 / 10000000000
      | _, _ => 1 / 10000000000) ∧
    pSrcGivenTrg m s t = (match (ref os).t t, (ref os).st s t with
      | some ct, some c => if c > 0 ∧ ct > 0 then c / ct else 1 / 10000000000
      | _, _ => 1 / 10000000000) := by
  have h := inv_perm (inv_run os ho) hm
  have e1 : getSrcInfo m s = (((ref os).s s).getD 0, ((ref os).s s).isSome) := by simp [getSrcInfo, h.src s hs]
  have e2 : getTrgInfo m t = (((ref os).t t).getD 0, ((ref os).t t).isSome) := by simp [getTrgInfo, h.trg t ht hn]
  have e3 : getSrcTrgInfo m s t = (((ref os).st s t).getD 0, ((ref os).st s t).isSome) := by
    simp [getSrcTrgInfo, h.pair s t hs ht hn]
  refine ⟨e1, e2, e3, by rw [cSrc, e1], by rw [cTrg, e2], by rw [cSrcTrg, e3], ?_, ?_, ?_⟩
  · simp only [infSrcTrg, e1, e3]
    cases (ref os).s s <;> cases (ref os).st s t <;> simp
  · have z : ¬ (0 : Rat) > 0 := by decide
    simp only [pTrgGivenSrc, cSrc, cSrcTrg, e1, e3, smooth]
    cases (ref os).s s <;> cases (ref os).st s t <;> simp only [Option.getD_some, Option.getD_none, z, if_false, ite_self]
    split <;> split <;> grind
  · have z : ¬ (0 : Rat) > 0 := by decide
    simp only [pSrcGivenTrg, cTrg, cSrcTrg, e2, e3, smooth]
    cases (ref os).t t <;> cases (ref os).st s t <;> simp only [Option.getD_some, Option.getD_none, z, if_false, ite_self]
    split <;> split <;> grind

/-! ### Totals of increments -/

/-- The sum of the increments given to the pairs satisfying `p`. -/
def total (p : Phrase → Phrase → Bool) : List (Phrase × Phrase × Rat) → Rat
  | [] => 0
  | (s, t, c) :: r => total p r + (if p s t then c else 0)

/-- A history made of increments. -/
def incrs (l : List (Phrase × Phrase × Rat)) : List Op := l.map (fun x => .incr x.1 x.2.1 x.2.2)

theorem ref_incrs (l : List (Phrase × Phrase × Rat)) : ∀ (r : Ref) (s t : Phrase),
    (((incrs l).foldl Ref.step r).s s).getD 0 = (r.s s).getD 0 + total (fun a _ => a = s) l ∧
    (((incrs l).foldl Ref.step r).t t).getD 0 = (r.t t).getD 0 + total (fun _ b => b = t) l ∧
    (((incrs l).foldl Ref.step r).st s t).getD 0 = (r.st s t).getD 0 + total (fun a b => a = s ∧ b = t) l := by
  induction l with
  | nil => intro r s t; simp [incrs, total, Rat.add_zero]
  | cons x l ih =>
    intro r s t
    obtain ⟨a, b, c⟩ := x
    have hc : incrs ((a, b, c) :: l) = .incr a b c :: incrs l := rfl
    rw [hc, List.foldl_cons]
    obtain ⟨h1, h2, h3⟩ := ih (Ref.step r (.incr a b c)) s t
    rw [h1, h2, h3]
    simp only [Ref.step, upd, upd2, total, decide_eq_true_eq]
    refine ⟨?_, ?_, ?_⟩
    · by_cases he : s = a
      · subst he; simp; grind
      · have he' : ¬ a = s := fun hc => he hc.symm
        simp [he, he']; grind
    · by_cases he : t = b
      · subst he; simp; grind
      · have he' : ¬ b = t := fun hc => he hc.symm
        simp [he, he']; grind
    · by_cases he : s = a ∧ t = b
      · obtain ⟨rfl, rfl⟩ := he; simp; grind
      · have he' : ¬ (a = s ∧ b = t) := fun hc => he ⟨hc.1.symm, hc.2.symm⟩
        simp [he, he']; grind

/-- **C156 (totals).** After any sequence of increments, each count is the sum of the increments given. -/
theorem C156_totals (l : List (Phrase × Phrase × Rat)) (hl : ∀ x ∈ l, Ok x.1 ∧ Ok x.2.1 ∧ x.2.1 ≠ []) (s t : Phrase)
    (hs : Ok s) (ht : Ok t) (hn : t ≠ []) :
    cSrc (run (incrs l)) s = total (fun a _ => a = s) l ∧ cTrg (run (incrs l)) t = total (fun _ b => b = t) l ∧
    cSrcTrg (run (incrs l)) s t = total (fun a b => a = s ∧ b = t) l := by
  have ho : ∀ o ∈ incrs l, OpOk o := by
    intro o ho
    obtain ⟨x, hx, rfl⟩ := List.mem_map.1 ho
    exact hl x hx
  obtain ⟨_, _, _, h1, h2, h3, _⟩ := C156_lookups (incrs l) ho _ (.refl _) s t hs ht hn
  obtain ⟨g1, g2, g3⟩ := ref_incrs l Ref.empty s t
  rw [h1, h2, h3]
  refine ⟨g1.trans ?_, g2.trans ?_, g3.trans ?_⟩ <;> exact Rat.zero_add _

/-! ### Agreement with the STL table -/

/-- The modifying calls of a history on `StlPhraseTable`. -/
def toHat : PhrTable.Op → Option Op
  | .incr s t c => some (.incr s t c)
  | .add s t cs cst => some (.add s t cs cst)
  | _ => none

theorem stl_ref : ∀ (os : List PhrTable.Op) {m m' : PhrTable.Table} {r : Ref}, PhrTable.Inv m →
    (∀ s, lk m.src s = r.s s) → (∀ t, PhrTable.T m t = (r.t t).getD 0) → (∀ s t, lk m.st (s, t) = r.st s t) →
    PhrTable.run m os = some m' →
    (∀ s, lk m'.src s = (((os.filterMap toHat).foldl Ref.step r).s s)) ∧
    (∀ t, PhrTable.T m' t = (((os.filterMap toHat).foldl Ref.step r).t t).getD 0) ∧
    (∀ s t, lk m'.st (s, t) = (((os.filterMap toHat).foldl Ref.step r).st s t))
  | [], m, m', r, _, h1, h2, h3, hr => by
    cases hr
    exact ⟨h1, h2, h3⟩
  | o :: os, m, m', r, hi, h1, h2, h3, hr => by
    rw [PhrTable.run] at hr
    cases hs : PhrTable.step m o with
    | none => rw [hs] at hr; cases hr
    | some p =>
      obtain ⟨res, m1⟩ := p
      rw [hs] at hr
      have hi1 := PhrTable.step_inv hi o hs
      by_cases hq : o.query
      · have hsame := PhrTable.step_query hi o hq hs
        have e : (o :: os).filterMap toHat = os.filterMap toHat := by
          cases o <;> first | rfl | cases hq
        rw [e]
        refine stl_ref os hi1 ?_ ?_ ?_ hr
        · intro s; rw [hsame.2.1]; exact h1 s
        · intro t; rw [hsame.2.2.2.1]; exact h2 t
        · intro s t; rw [hsame.2.2.1]; exact h3 s t
      · cases o with
        | incr a b c =>
          simp only [PhrTable.step, PhrTable.incr_eq hi, Option.map_some, Option.some.injEq, Prod.mk.injEq] at hs
          obtain ⟨_, rfl⟩ := hs
          rw [show (PhrTable.Op.incr a b c :: os).filterMap toHat = .incr a b c :: os.filterMap toHat from rfl, List.foldl_cons]
          refine stl_ref os hi1 ?_ ?_ ?_ hr
          · intro s; simp only [PhrTable.record, PhrTable.touch_src, lk_put, Ref.step, upd, h1, PhrTable.S]
          · intro t; rw [PhrTable.record_T, PhrTable.touch_T, h2, h2]; simp only [Ref.step, upd]; split <;> rfl
          · intro s t
            simp only [PhrTable.record, PhrTable.touch_st, lk_put, Prod.mk.injEq, Ref.step, upd2, h3, PhrTable.ST]
        | add a b cs cst =>
          simp only [PhrTable.step, PhrTable.add_eq, Option.map_some, Option.some.injEq, Prod.mk.injEq] at hs
          obtain ⟨_, rfl⟩ := hs
          rw [show (PhrTable.Op.add a b cs cst :: os).filterMap toHat = .add a b cs cst :: os.filterMap toHat from rfl,
            List.foldl_cons]
          refine stl_ref os hi1 ?_ ?_ ?_ hr
          · intro s; simp only [PhrTable.record, lk_put, Ref.step, upd, h1]
          · intro t; rw [PhrTable.record_T, h2, h2]; simp only [Ref.step, upd]; split <;> rfl
          · intro s t
            simp only [PhrTable.record, lk_put, Prod.mk.injEq, Ref.step, upd2, h3]
        | _ => exact absurd rfl hq

/-! ### C157: scans -/

theorem key_append (u v : Phrase) : key (u ++ v) = key u ++ key v := by simp [vectorToString]

theorem append_inj_len {a b x y : List Nat} (hl : a.length = b.length) (h : a ++ x = b ++ y) : a = b ∧ x = y :=
  List.append_inj h hl

/-- A prefix of a key is the key of a prefix. -/
theorem key_prefix : ∀ (u v : Phrase), Fits 3 u → Fits 3 v → ((key u).isPrefixOf (key v) = true ↔ ∃ r, v = u ++ r)
  | [], v, _, _ => by
    constructor
    · intro _; exact ⟨v, rfl⟩
    · intro _; simp [vectorToString]
  | w :: u, [], _, _ => by
    rw [List.isPrefixOf_iff_prefix]
    constructor
    · intro h
      have := h.length_le
      rw [key_length, key_length] at this
      simp at this
    · rintro ⟨r, hr⟩; simp at hr
  | w :: u, x :: v, hu, hv => by
    rw [fits_cons] at hu hv
    have ih := key_prefix u v hu.2 hv.2
    rw [List.isPrefixOf_iff_prefix] at ih ⊢
    rw [key, key_cons, key, key_cons]
    constructor
    · rintro ⟨r, hr⟩
      rw [List.append_assoc] at hr
      obtain ⟨h1, h2⟩ := append_inj_len (by rw [encWord_length, encWord_length]) hr
      have hw := encWord_inj hu.1.1 hv.1.1 h1
      obtain ⟨r', hr'⟩ := ih.1 ⟨r, h2⟩
      exact ⟨r', by rw [hw, hr']; rfl⟩
    · rintro ⟨r, hr⟩
      rw [List.cons_append, List.cons.injEq] at hr
      obtain ⟨rfl, hr⟩ := hr
      obtain ⟨q, hq⟩ := ih.2 ⟨r, hr⟩
      exact ⟨q, by rw [List.append_assoc, hq]⟩

theorem fits_sep {t : Phrase} (ht : Ok t) : Fits 3 (encodeTrgSrc [] t) := by
  rw [encodeTrgSrc, fits_append, fits_cons]; exact ⟨ht.1, by decide, by intro w hw; cases hw⟩

/-- The keys visited for a target phrase are those of its pairs. -/
theorem scanned_trg {m : Trie} {r : Ref} (h : Inv m r) {t : Phrase} (ht : Ok t) (hn : t ≠ []) (e : Bytes × Rat) (he : e ∈ m) :
    (key (encodeTrgSrc [] t)).isPrefixOf e.1 = true ↔ ∃ s, Ok s ∧ e.1 = key (encodeTrgSrc s t) := by
  obtain ⟨v, hv, hk⟩ := h.keys e he
  rw [hk, key_prefix _ _ (fits_sep ht) (form_fits hv)]
  constructor
  · rintro ⟨q, hq⟩
    have hq' : v = encodeTrgSrc q t := by rw [hq]; simp [encodeTrgSrc]
    rcases hv with ⟨s, hs, hvs⟩ | ⟨hvo, _⟩ | ⟨s, t', hs, ht', hn', hvs⟩
    · exact absurd (hvs.symm.trans hq') (enc_disjoint (t := t) ht ht hn).2.2
    · exact absurd hq' (enc_disjoint (s' := []) hvo ht hn).2.1
    · have := sep_split ht'.2 ht.2 (hvs.symm.trans hq')
      exact ⟨s, hs, by rw [hvs, this.1]⟩
  · rintro ⟨s, hs, hks⟩
    rw [key_inj (form_fits hv) (fits_trgSrc hs ht)] at hks
    exact ⟨s, by rw [hks]; simp [encodeTrgSrc]⟩

theorem drop_trgSrc (s t : Phrase) : (encodeTrgSrc s t).drop (t.length + 1) = s := by
  rw [encodeTrgSrc, show t ++ unusedWord :: s = (t ++ [unusedWord]) ++ s by simp]
  rw [List.drop_append_of_le_length (by simp)]
  simp

theorem inf_ref {m : Trie} {r : Ref} (h : Inv m r) {s t : Phrase} (hs : Ok s) (ht : Ok t) (hn : t ≠ []) :
    infSrcTrg m s t = (match r.s s, r.st s t with
      | some cs, some c => ((cs, c), true)
      | some cs, none => ((cs, 0), false)
      | none, _ => ((0, 0), false)) := by
  simp only [infSrcTrg, getSrcInfo, getSrcTrgInfo, h.src s hs, h.pair s t hs ht hn]
  cases r.s s <;> cases r.st s t <;> simp

/-- The general form of a scan whose results are collected in a map. -/
theorem collect {α : Type} (l : List α) (f : α → Option (Option (Phrase × (Rat × Rat))))
    (g : α → Option (Phrase × (Rat × Rat))) (hf : ∀ a ∈ l, f a = some (g a)) (hl : l.Nodup)
    (hinj : ∀ a ∈ l, ∀ b ∈ l, ∀ x y, g a = some x → g b = some y → x.1 = y.1 → a = b) :
    ∃ es, mapOpt f l = some es ∧
      (∀ x, x ∈ toMap (es.filterMap id) ↔ ∃ a ∈ l, g a = some x) ∧
      (toMap (es.filterMap id)).Pairwise (fun a b => a.1 < b.1) := by
  have hnd : (((l.map g).filterMap id).map Prod.fst).Nodup := by
    rw [List.filterMap_map, List.map_filterMap, List.Nodup, List.pairwise_filterMap]
    refine List.Pairwise.imp_of_mem ?_ hl
    intro a b ha hb hne x hx y hy hxy
    obtain ⟨x', hx', rfl⟩ := Option.map_eq_some_iff.1 hx
    obtain ⟨y', hy', rfl⟩ := Option.map_eq_some_iff.1 hy
    exact hne (hinj a ha b hb x' y' hx' hy' hxy)
  obtain ⟨h1, h2⟩ := toMap_spec _ hnd
  refine ⟨l.map g, mapOpt_some f g l hf, ?_, h1⟩
  intro x
  rw [h2, List.filterMap_map, List.mem_filterMap]
  rfl

/-- Specification of `getEntriesForTarget`: the recorded pairs with both counts not negligible. -/
def TrgEntry (r : Ref) (t : Phrase) (x : Phrase × (Rat × Rat)) : Prop :=
  r.s x.1 = some x.2.1 ∧ r.st x.1 t = some x.2.2 ∧ ¬ rabs x.2.1 < eps ∧ ¬ rabs x.2.2 < eps

theorem entriesForTarget_spec {m : Trie} {r : Ref} (h : Inv m r) (t : Phrase) (ht : Ok t) (hn : t ≠ []) :
    ∃ es, getEntriesForTarget m t = some (es, !es.isEmpty) ∧ (∀ x, x ∈ es ↔ TrgEntry r t x) ∧
      es.Pairwise (fun a b => a.1 < b.1) := by
  let src : Bytes → Phrase := fun k => ((stringToVector 3 k).getD []).drop (t.length + 1)
  let g : Bytes → Option (Phrase × (Rat × Rat)) := fun k =>
    if !(infSrcTrg m (src k) t).2 || rabs (infSrcTrg m (src k) t).1.1 < eps ||
      rabs (infSrcTrg m (src k) t).1.2 < eps then none else some (src k, (infSrcTrg m (src k) t).1)
  let l := (m.map Prod.fst).filter (fun k => (key (encodeTrgSrc [] t)).isPrefixOf k)
  have hks : ∀ k, k ∈ l ↔ k ∈ m.map Prod.fst ∧ ∃ s, Ok s ∧ k = key (encodeTrgSrc s t) := by
    intro k
    simp only [l, List.mem_filter]
    refine and_congr_right ?_
    intro hk
    obtain ⟨e, he, rfl⟩ := List.mem_map.1 hk
    exact scanned_trg h ht hn e he
  have hsrc : ∀ s, Ok s → src (key (encodeTrgSrc s t)) = s := by
    intro s hs
    show ((stringToVector 3 (key (encodeTrgSrc s t))).getD []).drop (t.length + 1) = s
    rw [C28_decode 3 (by omega) _ (fits_trgSrc hs ht), Option.getD_some, drop_trgSrc]
  have hscan : ∀ k ∈ l, scanTrg m t k = some (g k) := by
    intro k hk
    obtain ⟨_, s, hs, rfl⟩ := (hks k).1 hk
    unfold scanTrg
    have hl : ¬ (encodeTrgSrc s t).length < t.length + 1 := by simp [encodeTrgSrc]
    rw [C28_decode 3 (by omega) _ (fits_trgSrc hs ht)]
    simp only [hl, if_false, g, hsrc s hs, drop_trgSrc]
  have hg : ∀ s, Ok s → ∀ x, g (key (encodeTrgSrc s t)) = some x ↔ x.1 = s ∧ TrgEntry r t x := by
    intro s hs x
    simp only [g, hsrc s hs, inf_ref h hs ht hn]
    unfold TrgEntry
    cases h1 : r.s s with
    | none =>
      simp
      rintro rfl hc; rw [h1] at hc; cases hc
    | some cs =>
      cases h2 : r.st s t with
      | none =>
        simp
        rintro rfl _ hc; rw [h2] at hc; cases hc
      | some c =>
        simp only [Bool.not_true, Bool.false_or, Bool.or_eq_true, decide_eq_true_eq]
        constructor
        · intro hx
          split at hx
          · cases hx
          · next hz =>
            injection hx with hx; subst hx
            exact ⟨rfl, h1, h2, fun hc => hz (.inl hc), fun hc => hz (.inr hc)⟩
        · rintro ⟨rfl, e1, e2, e3, e4⟩
          rw [h1] at e1; rw [h2] at e2
          injection e1 with e1; injection e2 with e2
          rw [if_neg (by rw [e1, e2]; exact fun hc => hc.elim e3 e4), e1, e2]
  have hnd : l.Nodup := List.Pairwise.filter _ h.distinct
  obtain ⟨es, h1, h2, h3⟩ := collect l (scanTrg m t) g hscan hnd (by
    intro a ha b hb x y hx hy hxy
    obtain ⟨_, s, hs, rfl⟩ := (hks a).1 ha
    obtain ⟨_, s', hs', rfl⟩ := (hks b).1 hb
    rw [← ((hg s hs x).1 hx).1, ← ((hg s' hs' y).1 hy).1, hxy])
  refine ⟨toMap (es.filterMap id), ?_, ?_, h3⟩
  · unfold getEntriesForTarget
    rw [show mapOpt (scanTrg m t) ((m.map Prod.fst).filter (fun k => (key (encodeTrgSrc [] t)).isPrefixOf k)) = some es from h1]
  · intro x
    rw [h2]
    constructor
    · rintro ⟨k, hk, hx⟩
      obtain ⟨_, s, hs, rfl⟩ := (hks k).1 hk
      exact ((hg s hs x).1 hx).2
    · intro hx
      have hs : Ok x.1 := h.dsrc _ _ hx.1
      refine ⟨key (encodeTrgSrc x.1 t), (hks _).2 ⟨?_, x.1, hs, rfl⟩, (hg x.1 hs x).2 ⟨rfl, hx⟩⟩
      apply Classical.byContradiction
      intro hc
      have := h.pair x.1 t hs ht hn
      rw [lk_none_iff.2 hc, hx.2.1] at this; cases this

/-- **C157 (target).** For every history, every iteration order and every legal target phrase, the entries returned are
exactly the recorded source phrases whose own count and pair count are not negligible, with these counts, in
lexicographic order and each once; the returned flag says whether there is any. -/
theorem C157_target (os : List Op) (ho : ∀ o ∈ os, OpOk o) (m : Trie) (hm : m.Perm (run os)) (t : Phrase) (ht : Ok t)
    (hn : t ≠ []) :
    ∃ es, getEntriesForTarget m t = some (es, !es.isEmpty) ∧ (∀ x, x ∈ es ↔ TrgEntry (ref os) t x) ∧
      es.Pairwise (fun a b => a.1 < b.1) :=
  entriesForTarget_spec (inv_perm (inv_run os ho) hm) t ht hn

/-! `getEntriesForSource` -/

theorem toInt_zero {x : Rat} : toInt x = some 0 ↔ rabs x < 1 := by
  have fl : ∀ y : Rat, y.floor = 0 ↔ 0 ≤ y ∧ y < 1 := by
    intro y
    constructor
    · intro h
      have h1 := Rat.floor_le y
      have h2 := Rat.lt_floor_add_one y
      rw [h] at h1 h2
      push_cast at h1 h2
      grind
    · rintro ⟨h1, h2⟩
      have a : (0 : Int) ≤ y.floor := Rat.le_floor_iff.2 (by push_cast; exact h1)
      have b : y.floor < 1 := Rat.floor_lt_iff.2 (by push_cast; exact h2)
      omega
  unfold toInt rabs
  by_cases h : x < 0
  · simp only [h, if_true]
    have := fl (-x)
    split
    · simp only [Option.some.injEq]
      rw [show -(-x).floor = 0 ↔ (-x).floor = 0 by omega, this]
      grind
    · next hb =>
      simp only [reduceCtorEq, false_iff]
      intro hc
      rw [this.2 (by grind)] at hb
      exact hb (by decide)
  · simp only [h, if_false]
    have := fl x
    split
    · simp only [Option.some.injEq]
      rw [this]
      grind
    · next hb =>
      simp only [reduceCtorEq, false_iff]
      intro hc
      rw [this.2 (by grind)] at hb
      exact hb (by decide)

theorem toInt_some {x : Rat} (h : rabs x < 2 ^ 31) : ∃ n, toInt x = some n := by
  generalize hB : (2 : Int) ^ 31 = B
  have hB' : (B : Rat) = 2 ^ 31 := by rw [← hB]; push_cast; rfl
  rw [← hB'] at h
  have key : ∀ y : Rat, 0 ≤ y → y < (B : Rat) → 0 ≤ y.floor ∧ y.floor < B := by
    intro y h0 h1
    exact ⟨Rat.le_floor_iff.2 (by push_cast; exact h0), Rat.floor_lt_iff.2 h1⟩
  unfold toInt
  rw [hB]
  unfold rabs at h
  by_cases hx : x < 0
  · rw [if_pos hx] at h
    have := key (-x) (by grind) h
    simp only [hx, if_true]
    rw [if_pos (by omega)]
    exact ⟨_, rfl⟩
  · rw [if_neg hx] at h
    have := key x (by grind) h
    simp only [hx, if_false]
    rw [if_pos (by omega)]
    exact ⟨_, rfl⟩

theorem droppedSrc_eq {a b : Rat} (ha : rabs a < 2 ^ 31) (hb : rabs b < 2 ^ 31) :
    droppedSrc a b = some (decide (rabs a < 1 ∨ rabs b < 1)) := by
  obtain ⟨x, hx⟩ := toInt_some ha
  obtain ⟨y, hy⟩ := toInt_some hb
  have za := @toInt_zero a
  have zb := @toInt_zero b
  rw [hx, Option.some.injEq] at za
  rw [hy, Option.some.injEq] at zb
  unfold droppedSrc
  rw [hx, hy]
  by_cases h : x = 0
  · simp [h, za.1 h]
  · have : ¬ rabs a < 1 := fun hc => h (za.2 hc)
    simp only [h, if_false, Option.map_some, this, false_or, Option.some.injEq]
    by_cases h2 : y = 0
    · simp [h2, zb.1 h2]
    · have : ¬ rabs b < 1 := fun hc => h2 (zb.2 hc)
      simp [h2, this]

/-- Specification of `getEntriesForSource` (code): pairs whose target count and pair count are both at least one. -/
def SrcEntry (r : Ref) (s : Phrase) (x : Phrase × (Rat × Rat)) : Prop :=
  (r.t x.1).getD 0 = x.2.1 ∧ r.st s x.1 = some x.2.2 ∧ 1 ≤ rabs x.2.1 ∧ 1 ≤ rabs x.2.2

/-- No count exceeds the range of `int`. -/
def Small (r : Ref) : Prop := (∀ t c, r.t t = some c → rabs c < 2 ^ 31) ∧ ∀ s t c, r.st s t = some c → rabs c < 2 ^ 31

theorem suffix_split {u v x y : Phrase} (h : u ++ x = v ++ y) (hl : x.length = y.length) : u = v ∧ x = y :=
  List.append_inj' h hl

theorem entriesForSource_spec {m : Trie} {r : Ref} (h : Inv m r) (hsm : Small r) (s : Phrase) (hs : Ok s) :
    ∃ es, getEntriesForSource m s = some (es, !es.isEmpty) ∧ (∀ x, x ∈ es ↔ SrcEntry r s x) ∧
      es.Pairwise (fun a b => a.1 < b.1) := by
  -- the target phrase of an element, when it is a pair with this source
  have hform : ∀ v, Form v → (¬ v.length ≤ s.length + 1 ∧ v.drop (v.length - (s.length + 1)) = encodeSrc s ↔
      ∃ t, Ok t ∧ t ≠ [] ∧ v = encodeTrgSrc s t) := by
    intro v hv
    constructor
    · rintro ⟨h1, h2⟩
      have hd := List.take_append_drop (v.length - (s.length + 1)) v
      rw [h2] at hd
      have hu : v.take (v.length - (s.length + 1)) ≠ [] := by
        intro hc
        have := congrArg List.length hc
        rw [List.length_take, List.length_nil] at this
        omega
      have hd' : encodeTrgSrc s (v.take (v.length - (s.length + 1))) = v := hd
      generalize v.take (v.length - (s.length + 1)) = u at *
      rcases hv with ⟨s', hs', hvs⟩ | ⟨hvo, _⟩ | ⟨s', t', hs', ht', hn', hvs⟩
      · exfalso
        rw [hvs] at hd'
        cases u with
        | nil => exact hu rfl
        | cons w u =>
          simp only [encodeTrgSrc, encodeSrc, List.cons_append, List.cons.injEq] at hd'
          apply hs'.2
          rw [← hd'.2]; simp
      · exfalso
        apply hvo.2
        rw [← hd']; simp [encodeTrgSrc]
      · have he : u ++ unusedWord :: s = t' ++ unusedWord :: s' := hd'.trans hvs
        have hmem : unusedWord ∉ u := by
          intro hc
          obtain ⟨p, q, hpq⟩ := List.append_of_mem hc
          rw [hpq, List.append_assoc] at he
          by_cases hp : unusedWord ∈ p
          · obtain ⟨p1, p2, hp1, hp2⟩ : ∃ p1 p2, p = p1 ++ unusedWord :: p2 ∧ unusedWord ∉ p1 := by
              have : ∀ l : Phrase, unusedWord ∈ l → ∃ p1 p2, l = p1 ++ unusedWord :: p2 ∧ unusedWord ∉ p1 := by
                intro l
                induction l with
                | nil => intro h; cases h
                | cons a l ih =>
                  intro h
                  by_cases ha : a = unusedWord
                  · exact ⟨[], l, by simp [ha], by simp⟩
                  · have : unusedWord ∈ l := by
                      rcases List.mem_cons.1 h with h | h
                      · exact absurd h.symm ha
                      · exact h
                    obtain ⟨p1, p2, e1, e2⟩ := ih this
                    exact ⟨a :: p1, p2, by rw [e1]; rfl, by
                      intro hc; rcases List.mem_cons.1 hc with hc | hc
                      · exact ha hc.symm
                      · exact e2 hc⟩
              exact this p hp
            rw [hp1] at he
            simp only [List.append_assoc, List.cons_append] at he
            have := (sep_split hp2 ht'.2 he).2
            apply hs'.2
            rw [← this]; simp
          · have := (sep_split hp ht'.2 he).2
            apply hs'.2
            rw [← this]; simp
        have := sep_split hmem ht'.2 he
        exact ⟨t', ht', hn', by rw [hvs, this.2]⟩
    · rintro ⟨t, ht, hn, rfl⟩
      have hpos : 0 < t.length := List.length_pos_iff.2 hn
      have hlen : (encodeTrgSrc s t).length = t.length + (s.length + 1) := by simp [encodeTrgSrc]
      refine ⟨by rw [hlen]; omega, ?_⟩
      rw [hlen, Nat.add_sub_cancel, encodeTrgSrc, List.drop_left]; rfl
  have htake : ∀ t, (encodeTrgSrc s t).take ((encodeTrgSrc s t).length - (s.length + 1)) = t := by
    intro t
    have hlen : (encodeTrgSrc s t).length = t.length + (s.length + 1) := by simp [encodeTrgSrc]
    rw [hlen, Nat.add_sub_cancel, encodeTrgSrc, List.take_left]
  let vec : Bytes × Rat → Phrase := fun e => (stringToVector 3 e.1).getD []
  let trg : Bytes × Rat → Phrase := fun e => (vec e).take ((vec e).length - (s.length + 1))
  let g : Bytes × Rat → Option (Phrase × (Rat × Rat)) := fun e =>
    if (vec e).length ≤ s.length + 1 then none
    else if (vec e).drop ((vec e).length - (s.length + 1)) ≠ encodeSrc s then none
    else if rabs (cTrg m (trg e)) < 1 ∨ rabs e.2 < 1 then none
    else some (trg e, (cTrg m (trg e), e.2))
  have hvec : ∀ e ∈ m, ∃ v, Form v ∧ e.1 = key v ∧ vec e = v ∧ stringToVector 3 e.1 = some v := by
    intro e he
    obtain ⟨v, hv, hk⟩ := h.keys e he
    have : stringToVector 3 e.1 = some v := by rw [hk]; exact C28_decode 3 (by omega) v (form_fits hv)
    exact ⟨v, hv, hk, by simp only [vec, this, Option.getD_some], this⟩
  have hval : ∀ e ∈ m, ∀ t, Ok t → t ≠ [] → e.1 = key (encodeTrgSrc s t) → r.st s t = some e.2 := by
    intro e he t ht hn hk
    rw [← h.pair s t hs ht hn, lk_some_iff h.distinct, ← hk]; exact he
  have hct : ∀ t, Ok t → t ≠ [] → cTrg m t = (r.t t).getD 0 := by
    intro t ht hn
    simp [cTrg, getTrgInfo, h.trg t ht hn]
  have hsct : ∀ t, Ok t → t ≠ [] → rabs (cTrg m t) < 2 ^ 31 := by
    intro t ht hn
    rw [hct t ht hn]
    cases hc : r.t t with
    | none => decide +kernel
    | some c => exact hsm.1 t c hc
  have hscan : ∀ e ∈ m, scanSrc m s e = some (g e) := by
    intro e he
    obtain ⟨v, hv, hk, hve, hdec⟩ := hvec e he
    unfold scanSrc
    simp only [g, trg, hdec, hve]
    by_cases h1 : v.length ≤ s.length + 1
    · simp [h1]
    · by_cases h2 : v.drop (v.length - (s.length + 1)) = encodeSrc s
      · obtain ⟨t, ht, hn, rfl⟩ := (hform v hv).1 ⟨h1, h2⟩
        rw [if_neg h1, if_neg h1, if_neg (by simpa using h2), if_neg (by simpa using h2), htake]
        rw [droppedSrc_eq (hsct t ht hn) (hsm.2 _ _ _ (hval e he t ht hn hk))]
        simp only [Option.map_some, decide_eq_true_eq]
      · rw [if_neg h1, if_neg h1, if_pos h2, if_pos h2]
  have hg : ∀ e ∈ m, ∀ x, g e = some x → e.1 = key (encodeTrgSrc s x.1) ∧ SrcEntry r s x := by
    intro e he x hx
    obtain ⟨v, hv, hk, hve, hdec⟩ := hvec e he
    simp only [g, trg, hve] at hx
    split at hx
    · cases hx
    · next h1 =>
      split at hx
      · cases hx
      · next h2 =>
        split at hx
        · cases hx
        · next h3 =>
          obtain ⟨t, ht, hn, rfl⟩ := (hform v hv).1 ⟨h1, by simpa using h2⟩
          rw [htake] at hx h3
          injection hx with hx; subst hx
          refine ⟨hk, (hct t ht hn).symm, hval e he t ht hn hk, ?_, ?_⟩
          · exact Rat.not_lt.1 (fun hc => h3 (.inl hc))
          · exact Rat.not_lt.1 (fun hc => h3 (.inr hc))
  obtain ⟨es, h1, h2, h3⟩ := collect m (scanSrc m s) g hscan (List.Pairwise.imp (fun h hc => h (by rw [hc]))
      (List.pairwise_map.1 h.distinct)) (by
    intro a ha b hb x y hx hy hxy
    have e1 := (hg a ha x hx).1
    have e2 := (hg b hb y hy).1
    have l1 := (lk_some_iff h.distinct).2 (show (a.1, a.2) ∈ m from ha)
    have l2 := (lk_some_iff h.distinct).2 (show (b.1, b.2) ∈ m from hb)
    have e3 : a.1 = b.1 := by rw [e1, e2, hxy]
    rw [e3, l2] at l1
    injection l1 with l1
    exact Prod.ext e3 l1.symm)
  refine ⟨toMap (es.filterMap id), ?_, ?_, h3⟩
  · unfold getEntriesForSource
    rw [h1]
  · intro x
    rw [h2]
    constructor
    · rintro ⟨e, he, hx⟩; exact (hg e he x hx).2
    · intro hx
      obtain ⟨_, ht, hn⟩ := h.dpair _ _ _ hx.2.1
      have hl := h.pair s x.1 hs ht hn
      rw [hx.2.1] at hl
      have hmem := (lk_some_iff h.distinct).1 hl
      refine ⟨_, hmem, ?_⟩
      obtain ⟨v, hv, hk, hve, hdec⟩ := hvec _ hmem
      have hv' : v = encodeTrgSrc s x.1 := ((key_inj (fits_trgSrc hs ht) (form_fits hv)).1 hk).symm
      subst hv'
      have h5 := (hform _ hv).2 ⟨x.1, ht, hn, rfl⟩
      simp only [g, trg, hve]
      rw [if_neg h5.1, if_neg (by simpa using h5.2), htake, hct x.1 ht hn, hx.1]
      rw [if_neg (by
        intro hc
        rcases hc with hc | hc
        · exact absurd hx.2.2.1 (Rat.not_le.2 hc)
        · exact absurd hx.2.2.2 (Rat.not_le.2 hc))]

/-- **C157 (source, partial).** For every history whose counts fit in an `int`, every iteration order and every legal source
phrase, the entries returned are exactly the recorded target phrases whose own count and pair count are at least one in
absolute value, with these counts, in lexicographic order and each once. Missing with respect to `C157_full`: pairs with
fractional counts below one. -/
theorem C157_source_partial (os : List Op) (ho : ∀ o ∈ os, OpOk o) (hsm : Small (ref os)) (m : Trie) (hm : m.Perm (run os))
    (s : Phrase) (hs : Ok s) :
    ∃ es, getEntriesForSource m s = some (es, !es.isEmpty) ∧ (∀ x, x ∈ es ↔ SrcEntry (ref os) s x) ∧
      es.Pairwise (fun a b => a.1 < b.1) :=
  entriesForSource_spec (inv_perm (inv_run os ho) hm) hsm s hs

/-- Full statement: every recorded pair whose counts are not negligible is returned. -/
def C157_full : Prop := ∀ (os : List Op), (∀ o ∈ os, OpOk o) → Small (ref os) → ∀ s t ct c, Ok s → (ref os).t t = some ct →
  (ref os).st s t = some c → ¬ rabs ct < eps → ¬ rabs c < eps →
  ∃ es b, getEntriesForSource (run os) s = some (es, b) ∧ (t, (ct, c)) ∈ es

theorem ok_of {v : Phrase} (h : v.all (fun w => w != 2 && decide (w < 1000)) = true) : Ok v := by
  rw [List.all_eq_true] at h
  refine ⟨?_, ?_⟩
  · intro w hw
    have := h w hw
    simp at this
    refine ⟨Nat.lt_trans this.2 (by decide), Nat.lt_trans this.2 (by decide)⟩
  · intro hc
    have := h _ hc
    simp at this

/-- A pair seen once with weight one half (as in segmentation-based training) is not among the translations of its source
phrase, although it is found from the target side. -/
theorem C157_counterexample : ¬ C157_full := by
  intro h
  have ok3 : Ok [3] := ok_of (by decide)
  have ok4 : Ok [4] := ok_of (by decide)
  obtain ⟨es, b, h1, h2⟩ := h [.incr [3] [4] (1/2)]
    (by intro o ho; simp only [List.mem_cons, List.not_mem_nil, or_false] at ho; subst ho; exact ⟨ok3, ok4, by simp⟩)
    (by
      refine ⟨?_, ?_⟩
      · intro t c hc
        simp only [ref, List.foldl_cons, List.foldl_nil, Ref.step, upd, Ref.empty, Option.getD_none] at hc
        split at hc
        · injection hc with hc; rw [← hc]; decide +kernel
        · cases hc
      · intro s t c hc
        simp only [ref, List.foldl_cons, List.foldl_nil, Ref.step, upd2, Ref.empty, Option.getD_none] at hc
        split at hc
        · injection hc with hc; rw [← hc]; decide +kernel
        · cases hc)
    [3] [4] (1/2) (1/2) ok3 (by decide +kernel) (by decide +kernel) (by decide +kernel) (by decide +kernel)
  have : (getEntriesForSource (run [.incr [3] [4] (1/2)]) [3]) = some ([], false) := by decide +kernel
  rw [this] at h1
  simp only [Option.some.injEq, Prod.mk.injEq] at h1
  rw [← h1.1] at h2
  cases h2

/-! Ranking -/

/-- The ranking of a list of entries: the elements are the entries scored with `lg(c_st/c)`, best first. -/
def RankOf (lg : Rat → Int) (c : Rat) (es : List (Phrase × (Rat × Rat))) (nbt : List (Int × Phrase)) : Prop :=
  nbt.Perm (es.map (fun e => (lg (e.2.2 / c), e.1))) ∧ nbt.Pairwise (fun a b => b.1 ≤ a.1)

theorem fillNbest_rank (lg : Rat → Int) (c : Rat) : ∀ (es : List (Phrase × (Rat × Rat))) (nbt : Nbest.Table Phrase),
    MMap.Desc nbt → (fillNbest lg c es nbt).Perm (es.map (fun e => (lg (e.2.2 / c), e.1)) ++ nbt) ∧
      MMap.Desc (fillNbest lg c es nbt)
  | [], nbt, h => ⟨.refl _, h⟩
  | e :: es, nbt, h => by
    rw [fillNbest]
    obtain ⟨h1, h2⟩ := fillNbest_rank lg c es (Nbest.insert nbt (lg (e.2.2 / c)) e.1) (MMap.desc_ins h)
    refine ⟨h1.trans ?_, h2⟩
    rw [List.map_cons, List.cons_append]
    exact ((MMap.perm_ins _ _ _).append_left _).trans List.perm_middle

/-- **C157 (ranking).** `getNbestForSrc` returns the entries of `getEntriesForSource` scored with the logarithm of
`c(s,t)/c(s)`, best first. `getNbestForTrg` does so for the entries of `getEntriesForTarget` with `c(s,t)/c(t)`, and keeps
the first `N` of them when `N` is positive; with a negative `N` it keeps all; both return whether there is any entry. With
`N=0` the call is undefined as soon as there is an entry. -/
theorem C157_ranking (lg : Rat → Int) (os : List Op) (ho : ∀ o ∈ os, OpOk o) (hsm : Small (ref os)) (m : Trie)
    (hm : m.Perm (run os)) (s t : Phrase) (hs : Ok s) (ht : Ok t) (hn : t ≠ []) :
    (∃ es nbt, getNbestForSrc lg m s = some (nbt, !es.isEmpty) ∧ (∀ x, x ∈ es ↔ SrcEntry (ref os) s x) ∧
      (es.map Prod.fst).Nodup ∧ RankOf lg (((ref os).s s).getD 0) es nbt) ∧
    (∃ es all, (∀ x, x ∈ es ↔ TrgEntry (ref os) t x) ∧ (es.map Prod.fst).Nodup ∧
      RankOf lg (((ref os).t t).getD 0) es all ∧
      (∀ n : Int, n < 0 → getNbestForTrg lg m t n = some (all, !es.isEmpty)) ∧
      (∀ n : Nat, 0 < n → getNbestForTrg lg m t (n : Int) = some (all.take n, !es.isEmpty)) ∧
      (getNbestForTrg lg m t 0 = if es.isEmpty then some ([], false) else none)) := by
  have hnd : ∀ es : List (Phrase × (Rat × Rat)), es.Pairwise (fun a b => a.1 < b.1) → (es.map Prod.fst).Nodup := by
    intro es h
    rw [List.Nodup, List.pairwise_map]
    exact h.imp (fun h hc => by rw [hc] at h; exact List.lt_irrefl _ h)
  obtain ⟨_, _, _, hcs, hct, _⟩ := C156_lookups os ho m hm s t hs ht hn
  refine ⟨?_, ?_⟩
  · obtain ⟨es, h1, h2, h3⟩ := C157_source_partial os ho hsm m hm s hs
    obtain ⟨g1, g2⟩ := fillNbest_rank lg (cSrc m s) es [] List.Pairwise.nil
    rw [List.append_nil] at g1
    refine ⟨es, fillNbest lg (cSrc m s) es [], ?_, h2, hnd es h3, ?_⟩
    · unfold getNbestForSrc
      rw [h1]
      cases es <;> simp [fillNbest]
    · rw [← hcs]; exact ⟨g1, g2⟩
  · obtain ⟨es, h1, h2, h3⟩ := C157_target os ho m hm t ht hn
    obtain ⟨g1, g2⟩ := fillNbest_rank lg (cTrg m t) es [] List.Pairwise.nil
    rw [List.append_nil] at g1
    refine ⟨es, fillNbest lg (cTrg m t) es [], h2, hnd es h3, by rw [← hct]; exact ⟨g1, g2⟩, ?_, ?_, ?_⟩
    · intro n hneg
      unfold getNbestForTrg trimNbest
      rw [h1]
      cases es <;> simp [fillNbest, hneg]
    · intro n hpos
      unfold getNbestForTrg trimNbest
      rw [h1]
      have hnn : ¬ (n : Int) < 0 := by omega
      cases es with
      | nil => simp [fillNbest]
      | cons e es =>
        simp only [List.isEmpty_cons, Bool.not_false, if_true, hnn, if_false, Int.toNat_natCast]
        rw [Nbest.trimTo_eq n hpos _ _ (Nat.lt_succ_self _)]
        rfl
    · unfold getNbestForTrg trimNbest
      rw [h1]
      cases es with
      | nil => simp
      | cons e es =>
        simp only [List.isEmpty_cons, Bool.not_false, if_true, Int.toNat_zero]
        rw [Nbest.C18_trim_to_zero]
        · simp
        · intro hc
          have := g1.length_eq
          rw [hc] at this; simp at this

end Thot.HatTable
