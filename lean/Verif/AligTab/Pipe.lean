import Verif.AligTab.Props
/-!
C231: sorting of table files. C232: tables of several processes, sorted, merged and filtered.
-/
namespace Thot.AligTab

open Thot Thot.LexMerge Thot.Sum

/-! ### C231 -/

/-- Specification of the order of keys: at the first field where they differ, the first one is smaller. -/
def LexLt (a b : List UInt32) : Prop := ∃ p x y as bs, a = p ++ x :: as ∧ b = p ++ y :: bs ∧ x < y

theorem u32_not_lt {a b : UInt32} (h1 : ¬ b < a) (h2 : ¬ a < b) : a = b := by
  rw [UInt32.lt_iff_toNat_lt] at h1 h2
  exact UInt32.toNat_inj.1 (by omega)

theorem u32_irrefl (a : UInt32) : ¬ a < a := by rw [UInt32.lt_iff_toNat_lt]; omega

theorem less_iff : ∀ a b : List UInt32, less a b = true ↔ LexLt a b
  | [], b => by
    constructor
    · intro h; cases b <;> cases h
    · rintro ⟨p, x, y, as, bs, h, _⟩; cases p <;> cases h
  | a :: as, [] => by
    constructor
    · intro h; cases h
    · rintro ⟨p, x, y, as, bs, _, h, _⟩; cases p <;> cases h
  | a :: as, b :: bs => by
    have e : less (a :: as) (b :: bs) = if b < a then false else if a < b then true else less as bs := rfl
    rw [e]
    constructor
    · intro h
      split at h
      · cases h
      · rename_i h1
        split at h
        · rename_i h2; exact ⟨[], a, b, as, bs, rfl, rfl, h2⟩
        · rename_i h2
          obtain ⟨p, x, y, as', bs', e1, e2, e3⟩ := (less_iff as bs).1 h
          exact ⟨a :: p, x, y, as', bs', by rw [e1]; rfl, by rw [e2, u32_not_lt h1 h2]; rfl, e3⟩
    · rintro ⟨p, x, y, as', bs', e1, e2, e3⟩
      cases p with
      | nil =>
        injection e1 with ea _
        injection e2 with eb _
        subst ea; subst eb
        rw [if_neg, if_pos e3]
        intro h
        rw [UInt32.lt_iff_toNat_lt] at h e3
        omega
      | cons c p =>
        injection e1 with ea e1
        injection e2 with eb e2
        subst ea; subst eb
        rw [if_neg (u32_irrefl _), if_neg (u32_irrefl _), (less_iff as bs).2 ⟨p, x, y, as', bs', e1, e2, e3⟩]

theorem less_asymm : ∀ a b : List UInt32, less a b = true → less b a = false
  | [], b => by intro h; cases b <;> cases h
  | _ :: _, [] => by intro h; cases h
  | a :: as, b :: bs => by
    have e : ∀ (a b : UInt32) (as bs : List UInt32), less (a :: as) (b :: bs) = if b < a then false else if a < b then true else less as bs :=
      fun _ _ _ _ => rfl
    rw [e, e]
    intro h
    split at h
    · cases h
    · rename_i h1
      split at h
      · rename_i h2; rw [if_pos h2]
      · rename_i h2; rw [if_neg h2, if_neg h1, less_asymm as bs h]

/-- Not less is transitive between keys with the same number of fields. -/
theorem le_trans' : ∀ a b c : List UInt32, a.length = b.length → b.length = c.length → less b a = false → less c b = false →
    less c a = false
  | [], [], [] => by intros; rfl
  | [], _ :: _, _ => by intro h; cases h
  | _ :: _, [], _ => by intro h; cases h
  | _ , _ :: _, [] => by intro _ h; cases h
  | [], [], _ :: _ => by intro _ h; cases h
  | a :: as, b :: bs, c :: cs => by
    have e : ∀ (a b : UInt32) (as bs : List UInt32), less (a :: as) (b :: bs) = if b < a then false else if a < b then true else less as bs :=
      fun _ _ _ _ => rfl
    intro l1 l2 h1 h2
    rw [e] at h1 h2 ⊢
    by_cases hca : a < c
    · rw [if_pos hca]
    · rw [if_neg hca]
      by_cases hac : c < a
      · exfalso
        rw [UInt32.lt_iff_toNat_lt] at hac hca
        split at h1
        · rename_i hab
          rw [UInt32.lt_iff_toNat_lt] at hab
          split at h2
          · rename_i hbc; rw [UInt32.lt_iff_toNat_lt] at hbc; omega
          · split at h2
            · cases h2
            · rename_i hbc hcb
              have := u32_not_lt hbc hcb
              rw [this] at hac
              omega
        · rename_i hab
          split at h1
          · cases h1
          · rename_i hba
            have := u32_not_lt hab hba
            rw [← this] at hac hca
            split at h2
            · rename_i hbc; rw [UInt32.lt_iff_toNat_lt] at hbc; omega
            · split at h2
              · cases h2
              · rename_i hbc hcb; exact hcb (by rw [UInt32.lt_iff_toNat_lt]; omega)
      · rw [if_neg hac]
        have hca' := u32_not_lt hca hac
        subst hca'
        split at h1
        · rename_i hab
          split at h2
          · rename_i hbc
            rw [UInt32.lt_iff_toNat_lt] at hab hbc; omega
          · cases h2
        · rename_i hab
          split at h1
          · cases h1
          · rename_i hba
            have := u32_not_lt hab hba
            subst this
            rw [if_neg (u32_irrefl _), if_neg (u32_irrefl _)] at h2
            exact le_trans' as bs cs (by simpa using l1) (by simpa using l2) h1 h2

theorem eq_of_le : ∀ a b : List UInt32, a.length = b.length → less a b = false → less b a = false → a = b
  | [], [] => by intros; rfl
  | [], _ :: _ => by intro h; cases h
  | _ :: _, [] => by intro h; cases h
  | a :: as, b :: bs => by
    have e : ∀ (a b : UInt32) (as bs : List UInt32), less (a :: as) (b :: bs) = if b < a then false else if a < b then true else less as bs :=
      fun _ _ _ _ => rfl
    intro l h1 h2
    rw [e] at h1 h2
    by_cases hab : a < b
    · rw [if_neg (by rw [UInt32.lt_iff_toNat_lt] at hab ⊢; omega), if_pos hab] at h1
      cases h1
    · by_cases hba : b < a
      · rw [if_neg hab, if_pos hba] at h2
        cases h2
      · rw [if_neg hba, if_neg hab] at h1
        rw [if_neg hab, if_neg hba] at h2
        rw [u32_not_lt hba hab, eq_of_le as bs (by simpa using l) h1 h2]

theorem insert_ex (k : Nat) (r : FRec) (hr : r.key.length = k) : ∀ l : List FRec, (∀ x ∈ l, x.key.length = k) →
    l.Pairwise (fun a b => less b.key a.key = false) →
    ∃ l' : List FRec, l'.Perm (r :: l) ∧ l'.Pairwise (fun a b => less b.key a.key = false) := by
  intro l
  induction l with
  | nil => intro _ _; exact ⟨[r], List.Perm.refl _, List.pairwise_singleton _ _⟩
  | cons x l ih =>
    intro hk hs
    obtain ⟨s1, s2⟩ := List.pairwise_cons.1 hs
    have hx := hk x List.mem_cons_self
    cases hc : less x.key r.key with
    | false =>
      refine ⟨r :: x :: l, List.Perm.refl _, List.pairwise_cons.2 ⟨?_, hs⟩⟩
      intro y hy
      rcases List.mem_cons.1 hy with rfl | hy
      · exact hc
      · exact le_trans' r.key x.key y.key (hr.trans hx.symm) (hx.trans (hk y (List.mem_cons_of_mem _ hy)).symm) hc (s1 y hy)
    | true =>
      obtain ⟨l', p, s⟩ := ih (fun y hy => hk y (List.mem_cons_of_mem _ hy)) s2
      refine ⟨x :: l', (p.cons x).trans (List.Perm.swap r x l), List.pairwise_cons.2 ⟨?_, s⟩⟩
      intro y hy
      rcases List.mem_cons.1 (p.mem_iff.1 hy) with rfl | hy
      · exact less_asymm _ _ hc
      · exact s1 y hy

theorem sort_ex (k : Nat) : ∀ l : List FRec, (∀ x ∈ l, x.key.length = k) →
    ∃ l' : List FRec, l'.Perm l ∧ l'.Pairwise (fun a b => less b.key a.key = false) := by
  intro l
  induction l with
  | nil => intro _; exact ⟨[], List.Perm.refl _, List.Pairwise.nil⟩
  | cons x l ih =>
    intro hk
    obtain ⟨l1, p1, s1⟩ := ih fun y hy => hk y (List.mem_cons_of_mem _ hy)
    obtain ⟨l', p, s⟩ := insert_ex k x (hk x List.mem_cons_self) l1
      (fun y hy => hk y (List.mem_cons_of_mem _ (p1.mem_iff.1 hy))) s1
    exact ⟨l', p.trans (p1.cons x), s⟩

/-- C231: the comparison of the tools is the lexicographic order of the fields, and a strict weak order, as `std::sort` requires. -/
theorem C231_order :
    (∀ a b, less a b = true ↔ LexLt a b) ∧ (∀ a b, less a b = true → less b a = false) ∧
    (∀ a b c : List UInt32, a.length = b.length → b.length = c.length → less b a = false → less c b = false → less c a = false) ∧
    (∀ a b : List UInt32, a.length = b.length → less a b = false → less b a = false → a = b) :=
  ⟨less_iff, less_asymm, le_trans', eq_of_le⟩

/-- C231: for a file of complete records (perhaps followed by one to three bytes) the sorting tool ends, and what it writes is a
file with the same records, none of them before a smaller one; with distinct keys there is only one possible output. -/
theorem C231_sort (k : Nat) (l : List FRec) (hk : ∀ r ∈ l, r.key.length = k) (extra : List Nat) (he : extra.length < 4) :
    (∃ out, SortTool k (encRecs l ++ extra) out) ∧
    (∀ out, SortTool k (encRecs l ++ extra) out → ∃ l' : List FRec, out = encRecs l' ∧ readFile k out = some l' ∧ l'.Perm l ∧
      l'.Pairwise (fun a b => ¬ LexLt b.key a.key)) ∧
    ((l.map FRec.key).Nodup → ∀ out out', SortTool k (encRecs l ++ extra) out → SortTool k (encRecs l ++ extra) out' → out = out') := by
  have hrd := readFile_ok k l hk extra he
  have step : ∀ out, SortTool k (encRecs l ++ extra) out → ∃ l' : List FRec, out = encRecs l' ∧ l'.Perm l ∧
      l'.Pairwise (fun a b => less b.key a.key = false) := by
    rintro out ⟨m, l', hm, hp, hs, rfl⟩
    rw [hrd] at hm
    cases hm
    exact ⟨l', rfl, hp, hs⟩
  refine ⟨?_, ?_, ?_⟩
  · obtain ⟨l', p, s⟩ := sort_ex k l hk
    exact ⟨encRecs l', l, l', hrd, p, s, rfl⟩
  · intro out ho
    obtain ⟨l', rfl, p, s⟩ := step out ho
    refine ⟨l', rfl, ?_, p, s.imp ?_⟩
    · have := readFile_ok k l' (fun r hr => hk r (p.mem_iff.1 hr)) [] (by decide)
      rw [List.append_nil] at this
      exact this
    · intro a b h hl
      rw [(less_iff _ _).2 hl] at h
      cases h
  · intro hn out out' ho ho'
    obtain ⟨l1, rfl, p1, s1⟩ := step out ho
    obtain ⟨l2, rfl, p2, s2⟩ := step out' ho'
    rw [(p1.trans p2.symm).eq_of_pairwise ?_ s1 s2]
    intro a b ha hb h1 h2
    have ha' := p1.mem_iff.1 ha
    have hb' := p2.mem_iff.1 hb
    have hkk := eq_of_le a.key b.key ((hk a ha').trans (hk b hb').symm) h2 h1
    exact List.inj_on_of_nodup_map hn ha' hb' hkk

/-- C231: a file that ends within a record gives no defined output. -/
theorem C231_cut (k : Nat) (l : List FRec) (hk : ∀ r ∈ l, r.key.length = k) (cut : List Nat) (h1 : 4 ≤ cut.length)
    (h2 : cut.length < 4 * (k + 2)) (out : List Nat) : ¬ SortTool k (encRecs l ++ cut) out := by
  rintro ⟨m, l', hm, _⟩
  rw [readFile_cut k l hk cut h1 h2] at hm
  cases hm

/-- C231: the filtering information of a lexical table is the sequence of its pairs of words. -/
theorem C231_info (l : List FRec) (hk : ∀ r ∈ l, r.key.length = 2) :
    filterInfo (encRecs l) = some (l.flatMap fun r => enc (r.key.getD 0 0) ++ enc (r.key.getD 1 0)) := by
  unfold filterInfo
  have := readFile_ok 2 l hk [] (by decide)
  rw [List.append_nil] at this
  rw [this]
  show some _ = some _
  congr 1
  have key : ∀ m : List FRec, (∀ r ∈ m, r.key.length = 2) → (m.flatMap fun r => r.key.flatMap enc) =
      m.flatMap fun r => enc (r.key.getD 0 0) ++ enc (r.key.getD 1 0) := by
    intro m
    induction m with
    | nil => intro _; rfl
    | cons r m ih =>
      intro h
      rw [List.flatMap_cons, List.flatMap_cons, ih fun r' hr' => h r' (List.mem_cons_of_mem _ hr')]
      congr 1
      have hr := h r List.mem_cons_self
      match hkk : r.key, hr with
      | [a, b], _ => simp
  exact key l hk

/-! ### C232 -/

theorem recLess_iff (a b : Rec Nat Nat) : recLess a b = true ↔ kLt a b := by
  unfold recLess kLt
  split
  · constructor
    · intro h; cases h
    · intro h; omega
  · split
    · constructor
      · intro _; left; assumption
      · intro _; rfl
    · split
      · constructor
        · intro h; cases h
        · intro h; omega
      · split
        · constructor
          · intro _; right; omega
          · intro _; rfl
        · constructor
          · intro h; cases h
          · intro h; omega

/-- A sorted printed table is a table for the merging tool. -/
theorem table_of_sorted {x : Lex} (hx : LexMerge.Ok x) {f : List (Rec Nat Nat)} (h : RecSorts x.print f) : Table f := by
  refine ⟨?_, ?_⟩
  · have hn : (f.map fun r => (r.s, r.t)).Nodup := (h.1.map _).nodup_iff.2 (print_nodup x hx)
    rw [List.nodup_iff_pairwise_ne, List.pairwise_map] at hn
    refine (hn.and h.2).imp ?_
    rintro a b ⟨h1, h2⟩
    have h3 : ¬ kLt b a := by
      intro h
      rw [(recLess_iff b a).2 h] at h2
      cases h2
    unfold kLt at h3 ⊢
    have h4 : ¬ (a.s = b.s ∧ a.t = b.t) := by
      rintro ⟨e1, e2⟩
      exact h1 (by rw [e1, e2])
    omega
  · intro a ha b hb hab
    rw [((mem_print x hx a).1 (h.1.mem_iff.1 ha)).2, ((mem_print x hx b).1 (h.1.mem_iff.1 hb)).2, hab]

theorem numOf_mem {l : List (Rec Nat Nat)} (h : Table l) {r : Rec Nat Nat} (hr : r ∈ l) : numOf l r.s r.t = r.num := by
  unfold numOf
  have hn : l.Nodup := by
    rw [List.nodup_iff_pairwise_ne]
    refine h.1.imp ?_
    intro a b hab e
    rw [e] at hab
    exact kLt_irrefl _ hab
  have huniq : ∀ a ∈ l, a.s = r.s → a.t = r.t → a = r := by
    intro a ha e1 e2
    have hp := h.1
    apply Classical.byContradiction
    intro hne
    have : kLt a r ∨ kLt r a := by
      obtain ⟨i, hi, rfl⟩ := List.mem_iff_getElem.1 ha
      obtain ⟨j, hj, rfl⟩ := List.mem_iff_getElem.1 hr
      rw [List.pairwise_iff_getElem] at hp
      rcases Nat.lt_trichotomy i j with h | h | h
      · exact Or.inl (hp i j hi hj h)
      · subst h; exact absurd rfl hne
      · exact Or.inr (hp j i hj hi h)
    unfold kLt at this
    omega
  rw [sumBy_congr (g := fun a => if a = r then r.num else 0)]
  · rw [sumBy_single r r.num hn, if_pos hr]
  · intro a ha
    by_cases he : a = r
    · rw [if_pos he, he, if_pos ⟨rfl, rfl⟩]
    · rw [if_neg he, if_neg]
      rintro ⟨e1, e2⟩
      exact he (huniq a ha e1 e2)

theorem numOf_none {l : List (Rec Nat Nat)} {s t : Nat} (h : ∀ r ∈ l, ¬ (r.s = s ∧ r.t = t)) : numOf l s t = 0 :=
  sumBy_zero fun r hr => if_neg (h r hr)

theorem numOf_sorted {x : Lex} (hx : LexMerge.Ok x) {f : List (Rec Nat Nat)} (h : RecSorts x.print f) (s t : Nat) :
    numOf f s t = (x.getNumer s t).getD 0 := by
  cases hg : x.getNumer s t with
  | some n =>
    have hm : (⟨s, t, n, (x.getDenom s).2⟩ : Rec Nat Nat) ∈ f := h.1.mem_iff.2 ((mem_print x hx _).2 ⟨hg, rfl⟩)
    exact numOf_mem (table_of_sorted hx h) hm
  | none =>
    apply numOf_none
    rintro r hr ⟨e1, e2⟩
    have := ((mem_print x hx r).1 (h.1.mem_iff.1 hr)).1
    rw [e1, e2, hg] at this
    cases this

open Classical in
theorem denOf_sorted {x : Lex} (hx : LexMerge.Ok x) {f : List (Rec Nat Nat)} (h : RecSorts x.print f) (s : Nat) :
    denOf f s = if ∃ t, (x.getNumer s t).isSome then (x.getDenom s).2 else 0 := by
  by_cases he : ∃ t, (x.getNumer s t).isSome
  · rw [if_pos he]
    obtain ⟨t, ht⟩ := he
    obtain ⟨n, hn⟩ := Option.isSome_iff_exists.1 ht
    have hm : (⟨s, t, n, (x.getDenom s).2⟩ : Rec Nat Nat) ∈ f := h.1.mem_iff.2 ((mem_print x hx _).2 ⟨hn, rfl⟩)
    exact denOf_eq (table_of_sorted hx h) hm
  · rw [if_neg he]
    unfold denOf
    rw [List.find?_eq_none.2]
    intro r hr hd
    have hd := of_decide_eq_true hd
    apply he
    refine ⟨r.t, ?_⟩
    rw [← hd, ((mem_print x hx r).1 (h.1.mem_iff.1 hr)).1]
    rfl

open Classical in
/-- C232: `k` processes fill lexical tables by any calls and print them; the files are sorted and merged, and the merged table is
filtered with the pairs of words of process `i`. Whatever the runs of the tools, the table that process `i` loads then has exactly
the pairs of its own table, each one with the sum of its numerators in all the processes; the denominator of a source with some
pair is the sum of those of the processes that have a pair with that source, and other sources have none. -/
theorem C232_pipeline (k : Nat) (ops : Nat → List LexMerge.Op) (files : Nat → List (Rec Nat Nat)) (out : Option (List (Rec Nat Nat)))
    (hsort : ∀ i, i < k → RecSorts ((ops i).foldl Lex.apply Lex.empty).print (files i))
    (hne : ∃ i, i < k ∧ ∃ s t, (((ops i).foldl Lex.apply Lex.empty).getNumer s t).isSome)
    (hm : Merges files k out) :
    ∃ m, out = some m ∧ ∀ i, i < k → ∀ s t,
      (Lex.load (LexMerge.filter m (recInfo (files i)))).getNumer s t =
        (if (((ops i).foldl Lex.apply Lex.empty).getNumer s t).isSome then
          some (sumBy (fun j => (((ops j).foldl Lex.apply Lex.empty).getNumer s t).getD 0) (List.range k)) else none) ∧
      (Lex.load (LexMerge.filter m (recInfo (files i)))).getDenom s =
        (if ∃ u, (((ops i).foldl Lex.apply Lex.empty).getNumer s u).isSome then
          (true, sumBy (fun j => if ∃ u, (((ops j).foldl Lex.apply Lex.empty).getNumer s u).isSome then
            (((ops j).foldl Lex.apply Lex.empty).getDenom s).2 else 0) (List.range k)) else (false, 0)) := by
  have hok : ∀ i, LexMerge.Ok ((ops i).foldl Lex.apply Lex.empty) := fun i => ok_reach (ops i)
  generalize hX : (fun i => (ops i).foldl Lex.apply Lex.empty) = X at *
  have hXi : ∀ i, (ops i).foldl Lex.apply Lex.empty = X i := fun i => by rw [← hX]
  simp only [hXi] at *
  have htab : ∀ i, i < k → Table (files i) := fun i hi => table_of_sorted (hok i) (hsort i hi)
  have hmf : ∀ i, i < k → ∀ r, r ∈ files i ↔ (X i).getNumer r.s r.t = some r.num ∧ r.den = ((X i).getDenom r.s).2 := by
    intro i hi r
    rw [(hsort i hi).1.mem_iff, mem_print _ (hok i)]
  obtain ⟨m, rfl, hmt, hmem⟩ := C133_merge files k htab (by
    obtain ⟨i, hi, s, t, h⟩ := hne
    obtain ⟨n, hn⟩ := Option.isSome_iff_exists.1 h
    refine ⟨i, hi, fun he => ?_⟩
    have := (hmf i hi ⟨s, t, n, ((X i).getDenom s).2⟩).2 ⟨hn, rfl⟩
    rw [he] at this
    cases this) out hm
  refine ⟨m, rfl, fun i hi s t => ?_⟩
  have hpairs : ∀ s t, (s, t) ∈ recInfo (files i) ↔ ((X i).getNumer s t).isSome := by
    intro s t
    unfold recInfo
    rw [List.mem_map]
    constructor
    · rintro ⟨r, hr, he⟩
      rw [← (Prod.mk.inj he).1, ← (Prod.mk.inj he).2, ((hmf i hi r).1 hr).1]; rfl
    · intro h
      obtain ⟨n, hn⟩ := Option.isSome_iff_exists.1 h
      exact ⟨⟨s, t, n, ((X i).getDenom s).2⟩, (hmf i hi _).2 ⟨hn, rfl⟩, rfl⟩
  have hin : ∀ s t, ((X i).getNumer s t).isSome → ∃ i', i' < k ∧ ∃ r ∈ files i', r.s = s ∧ r.t = t := by
    intro s t h
    obtain ⟨n, hn⟩ := Option.isSome_iff_exists.1 h
    exact ⟨i, hi, ⟨s, t, n, ((X i).getDenom s).2⟩, (hmf i hi _).2 ⟨hn, rfl⟩, rfl, rfl⟩
  have hfil : LexMerge.filter m (recInfo (files i)) = m.filter fun r => decide ((r.s, r.t) ∈ recInfo (files i)) := by
    apply C135_present_partial m _ hmt.1
    · unfold SortedKeys recInfo
      rw [List.pairwise_map]
      exact (htab i hi).1
    · rintro ⟨s', t'⟩ hf
      exact ⟨_, (hmem s' t' _ _).2 ⟨hin s' t' ((hpairs s' t').1 hf), rfl, rfl⟩, rfl⟩
  have hmf2 : ∀ r, r ∈ LexMerge.filter m (recInfo (files i)) ↔ ((X i).getNumer r.s r.t).isSome ∧
      r.num = sumBy (fun j => ((X j).getNumer r.s r.t).getD 0) (List.range k) ∧
      r.den = sumBy (fun j => if ∃ u, ((X j).getNumer r.s u).isSome then ((X j).getDenom r.s).2 else 0) (List.range k) := by
    intro r
    have e1 : sumBy (fun j => numOf (files j) r.s r.t) (List.range k) =
        sumBy (fun j => ((X j).getNumer r.s r.t).getD 0) (List.range k) :=
      sumBy_congr fun j hj => numOf_sorted (hok j) (hsort j (List.mem_range.1 hj)) _ _
    have e2 : sumBy (fun j => denOf (files j) r.s) (List.range k) =
        sumBy (fun j => if ∃ u, ((X j).getNumer r.s u).isSome then ((X j).getDenom r.s).2 else 0) (List.range k) :=
      sumBy_congr fun j hj => denOf_sorted (hok j) (hsort j (List.mem_range.1 hj)) _
    rw [hfil, List.mem_filter, decide_eq_true_iff, hpairs, ← e1, ← e2]
    constructor
    · rintro ⟨h1, h2⟩
      exact ⟨h2, ((hmem r.s r.t r.num r.den).1 h1).2⟩
    · rintro ⟨h1, h2⟩
      exact ⟨(hmem r.s r.t r.num r.den).2 ⟨hin _ _ h1, h2⟩, h1⟩
  obtain ⟨k1, k2, k3, k4⟩ := load_spec (LexMerge.filter m (recInfo (files i))) (by
    rw [hfil]
    refine List.Nodup.sublist (List.Sublist.map _ List.filter_sublist) ?_
    rw [List.nodup_iff_pairwise_ne, List.pairwise_map]
    refine hmt.1.imp ?_
    intro a b hab he
    obtain ⟨e1, e2⟩ := Prod.mk.inj he
    unfold kLt at hab
    omega) (by
    intro a ha b hb hab
    rw [hfil] at ha hb
    exact hmt.2 a (List.mem_filter.1 ha).1 b (List.mem_filter.1 hb).1 hab) s t
  refine ⟨?_, ?_⟩
  · by_cases h : ((X i).getNumer s t).isSome
    · rw [if_pos h]
      exact k1 ⟨s, t, (sumBy (fun j => ((X j).getNumer s t).getD 0) (List.range k)), (sumBy (fun j => if ∃ u, ((X j).getNumer s u).isSome then ((X j).getDenom s).2 else 0) (List.range k))⟩ ((hmf2 _).2 ⟨h, rfl, rfl⟩) rfl rfl
    · rw [if_neg h]
      apply k2
      rintro r hr ⟨e1, e2⟩
      have := ((hmf2 r).1 hr).1
      rw [e1, e2] at this
      exact h this
  · by_cases h : ∃ u, ((X i).getNumer s u).isSome
    · rw [if_pos h]
      obtain ⟨u, hu⟩ := h
      exact k3 ⟨s, u, (sumBy (fun j => ((X j).getNumer s u).getD 0) (List.range k)), (sumBy (fun j => if ∃ u, ((X j).getNumer s u).isSome then ((X j).getDenom s).2 else 0) (List.range k))⟩ ((hmf2 _).2 ⟨hu, rfl, rfl⟩) rfl
    · rw [if_neg h]
      apply k4
      intro r hr e1
      have := ((hmf2 r).1 hr).1
      rw [e1] at this
      exact h ⟨_, this⟩

/-! ### Non-vacuity -/

def exHmm : List (Op HKey) := [.both ⟨1, 2⟩ 0 7 9, .numer ⟨1, 2⟩ 1 3, .clear, .both ⟨0, 2⟩ 1 5 6, .numer ⟨2, 2⟩ 0 4, .denom ⟨3, 3⟩ 8]

example : ∀ o ∈ exHmm, SmallOp o := by
  intro o ho
  simp only [exHmm, List.mem_cons, List.not_mem_nil, or_false] at ho
  rcases ho with rfl | rfl | rfl | rfl | rfl | rfl <;> simp only [SmallOp, Small] <;> decide

example : (exHmm.foldl Hmm.apply Hmm.empty).print =
    some (encRecs [⟨[2, 2, 0], 4, 0⟩, ⟨[0, 2, 1], 5, 6⟩]) := by decide +kernel

example : encRec ⟨[2, 258, 0], 4, 5⟩ = [2, 0, 0, 0, 2, 1, 0, 0, 0, 0, 0, 0, 4, 0, 0, 0, 5, 0, 0, 0] := by decide +kernel

def exIbm : List (Op AKey) := [.both ⟨1, 2, 3⟩ 0 7 9, .numer ⟨1, 2, 3⟩ 1 3]
example : ∀ o ∈ exIbm, SmallPos o := by
  intro o ho
  simp only [exIbm, List.mem_cons, List.not_mem_nil, or_false] at ho
  rcases ho with rfl | rfl <;> simp only [SmallPos, Small] <;> decide
example : (exIbm.foldl Ibm2.apply Ibm2.empty).numer = [[(⟨1, 2, 3⟩, 7)], [(⟨1, 2, 3⟩, 3)]] := by decide +kernel

example : less [1, 5] [2, 0] = true ∧ less [1, 5] [1, 6] = true ∧ less [1, 5] [1, 5] = false := by decide +kernel

/-- Two processes, one of them without the pair (1, 2): its filtered table has the sum for (1, 3) only. -/
example : filter ([⟨1, 2, 5, 9⟩, ⟨1, 3, 4, 9⟩] : List (Rec Nat Nat)) (recInfo ([⟨1, 3, 1, 1⟩] : List (Rec Nat Nat))) = [⟨1, 3, 4, 9⟩] := by decide +kernel
example : RecSorts ([.both 1 3 1 2, .both 0 4 1 1].foldl Lex.apply Lex.empty).print [⟨0, 4, 1, 1⟩, ⟨1, 3, 1, 2⟩] := by
  refine ⟨?_, by decide +kernel⟩
  have : ([.both 1 3 1 2, .both 0 4 1 1].foldl Lex.apply Lex.empty).print = [⟨1, 3, 1, 2⟩, ⟨0, 4, 1, 1⟩] := by decide +kernel
  rw [this]
  exact List.Perm.swap _ _ _

end Thot.AligTab
