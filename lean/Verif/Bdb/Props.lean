import Verif.Bdb.Model
import Verif.LdbStore.Tool

/-!
C226: a Berkeley DB phrase table reflects the history of its changes. C227: fast search changes no probability. C228: `thot_ttable_to_fbdb`.
-/
namespace Thot.Bdb
open Thot.Awk (Str)

/-! ### Specification -/

/-- The counts added by a history to the pairs of phrases selected by `p`. -/
def added (p : Phrase → Phrase → Bool) (h : List Op) : List Rat :=
  h.filterMap fun o => match o with
    | .incr s t c => if p s t then some c else none
    | .enable => none

def sumSrc (h : List Op) (s : Phrase) : Rat := (added (fun s' _ => s' = s) h).sum
def sumTrg (h : List Op) (t : Phrase) : Rat := (added (fun _ t' => t' = t) h).sum
def sumPair (h : List Op) (s t : Phrase) : Rat := (added (fun s' t' => s' = s ∧ t' = t) h).sum

/-- Phrases are not empty and the reserved word 2 is not in the source phrase. -/
def OpOk : Op → Prop
  | .incr s t _ => s ≠ [] ∧ t ≠ [] ∧ 2 ∉ s
  | .enable => True

/-- The history adds a count to the pair. -/
def HasPair (h : List Op) (s t : Phrase) : Prop := ∃ c, Op.incr s t c ∈ h
def HasSrc (h : List Op) (s : Phrase) : Prop := ∃ t c, Op.incr s t c ∈ h
def HasTrg (h : List Op) (t : Phrase) : Prop := ∃ s c, Op.incr s t c ∈ h

/-- The full property: counts are the sums of the counts added. -/
def C226_full : Prop := ∀ (h : List Op), (∀ o ∈ h, OpOk o) → ∀ s t, s ≠ [] → t ≠ [] → 2 ∉ s →
  (getSrcTrg (run h) s t).1 = sumPair h s t ∧ (getSrc (run h) s).1 = sumSrc h s ∧ (getTrg (run h) t).1 = sumTrg h t

/-- The full property: enabling fast search changes no probability. -/
def C227_full : Prop := ∀ (h : List Op), (∀ o ∈ h, OpOk o) → (∀ s t c, Op.incr s t c ∈ h → 0 ≤ c) → ∀ s t, s ≠ [] → 2 ∉ s →
  pTrgGivenSrc (run (h ++ [.enable])) s t = pTrgGivenSrc (run h) s t

/-! ### Keys -/

theorem cmpVec_lt : ∀ a b : Phrase, (cmpVec a b < 0 ↔ a < b) ∧ (cmpVec a b = 0 ↔ a = b) ∧ (0 < cmpVec a b ↔ b < a)
  | [], [] => by simp [cmpVec]
  | [], y :: b => by simp [cmpVec]
  | x :: a, [] => by simp [cmpVec]
  | x :: a, y :: b => by
    have ih := cmpVec_lt a b
    rw [cmpVec]
    by_cases h1 : x < y
    · rw [if_pos h1]
      simp only [List.cons_lt_cons_iff, List.cons.injEq]
      refine ⟨⟨fun _ => .inl h1, fun _ => by omega⟩, ⟨fun c => by omega, fun c => by omega⟩, ⟨fun c => by omega, ?_⟩⟩
      rintro (c | ⟨c, _⟩) <;> omega
    · rw [if_neg h1]
      by_cases h2 : y < x
      · rw [if_pos h2]
        simp only [List.cons_lt_cons_iff, List.cons.injEq]
        refine ⟨⟨fun c => by omega, ?_⟩, ⟨fun c => by omega, fun c => by omega⟩, ⟨fun c => .inl h2, fun c => by omega⟩⟩
        rintro (c | ⟨c, _⟩) <;> omega
      · rw [if_neg h2]
        have hxy : x = y := by omega
        subst hxy
        simp only [List.cons_lt_cons_iff, List.cons.injEq, Nat.lt_irrefl, false_or, true_and]
        exact ih

/-- **C226 (order).** The comparison function orders pairs by target phrase and then by source phrase, both lexicographically, and is 0 for equal
pairs only. -/
theorem C226_order (s t s' t' : Phrase) :
    (cmpKeys (s, t) (s', t') < 0 ↔ t < t' ∨ t = t' ∧ s < s') ∧ (cmpKeys (s, t) (s', t') = 0 ↔ t = t' ∧ s = s') ∧
    (cmpKeys (s, t) (s', t') < 0 ↔ (toLex (t, s) : Key) < toLex (t', s')) := by
  obtain ⟨h1, h2, h3⟩ := cmpVec_lt t t'
  obtain ⟨g1, g2, g3⟩ := cmpVec_lt s s'
  have e1 : cmpKeys (s, t) (s', t') < 0 ↔ t < t' ∨ t = t' ∧ s < s' := by
    unfold cmpKeys
    show (if cmpVec t t' ≠ 0 then cmpVec t t' else cmpVec s s') < 0 ↔ _
    by_cases hz : cmpVec t t' = 0
    · rw [if_neg (by simpa using hz), g1]
      have ht := h2.1 hz
      subst ht
      simp
    · rw [if_pos hz, h1]
      have ht : ¬ t = t' := fun c => hz (h2.2 c)
      simp [ht]
  refine ⟨e1, ?_, ?_⟩
  · unfold cmpKeys
    show (if cmpVec t t' ≠ 0 then cmpVec t t' else cmpVec s s') = 0 ↔ _
    by_cases hz : cmpVec t t' = 0
    · rw [if_neg (by simpa using hz), g2]
      exact ⟨fun h => ⟨h2.1 hz, h⟩, fun h => h.2⟩
    · rw [if_pos hz]
      exact ⟨fun h => absurd h hz, fun h => absurd (h2.2 h.1) hz⟩
  · rw [e1, Prod.Lex.toLex_lt_toLex]

theorem decode_sep (s t : Phrase) (h : 2 ∉ s) : decode (s ++ 2 :: t) = (s, t) := by
  have ht : (s ++ 2 :: t).takeWhile (· ≠ 2) = s := by
    rw [List.takeWhile_append_of_pos (by intro a ha; simp; intro c; subst c; exact h ha)]
    simp
  unfold decode
  rw [ht]
  rw [List.drop_length_add_append]
  rfl

theorem words_ok {s t : Phrase} (h : s.length + t.length ≤ 20) : words s t = some (s ++ 2 :: t) := if_pos (by omega)
theorem words_long {s t : Phrase} (h : ¬ s.length + t.length ≤ 20) : words s t = none := if_neg (by omega)

theorem keyOf_sep (s t : Phrase) (h : 2 ∉ s) : keyOf (s ++ 2 :: t) = toLex (t, s) := by
  unfold keyOf; rw [decode_sep s t h]

theorem retrieve_ok (db : Db) {s t : Phrase} (h : s.length + t.length ≤ 20) (h2 : 2 ∉ s) : retrieve db s t = SMap.get db (toLex (t, s)) := by
  unfold retrieve; rw [words_ok h, Option.bind_some, keyOf_sep s t h2]

theorem retrieve_long (db : Db) {s t : Phrase} (h : ¬ s.length + t.length ≤ 20) : retrieve db s t = none := by
  unfold retrieve; rw [words_long h]; rfl

theorem putData_ok (db : Db) {s t : Phrase} (c : Rat) (h : s.length + t.length ≤ 20) (h2 : 2 ∉ s) : putData db s t c = SMap.ins db (toLex (t, s)) ⟨c, 0⟩ := by
  unfold putData; rw [words_ok h]; show SMap.ins db (keyOf _) _ = _; rw [keyOf_sep s t h2]

theorem putData_long (db : Db) {s t : Phrase} (c : Rat) (h : ¬ s.length + t.length ≤ 20) : putData db s t c = db := by
  unfold putData; rw [words_long h]

/-- The count of a record. -/
def cnt (db : Db) (s t : Phrase) : Option Rat := (SMap.get db (toLex (t, s))).map Val.count

theorem incrPhr_ok (db : Db) {s t : Phrase} (c : Rat) (h : s.length + t.length ≤ 20) (h2 : 2 ∉ s) :
    incrPhr db s t c = SMap.ins db (toLex (t, s)) ⟨(cnt db s t).getD 0 + c, 0⟩ := by
  unfold incrPhr cnt
  rw [retrieve_ok db h h2]
  cases SMap.get db (toLex (t, s)) with
  | none => show putData db s t c = SMap.ins db _ ⟨0 + c, 0⟩; rw [putData_ok db c h h2, Rat.zero_add]
  | some v => exact putData_ok db _ h h2

theorem incrPhr_long (db : Db) {s t : Phrase} (c : Rat) (h : ¬ s.length + t.length ≤ 20) : incrPhr db s t c = db := by
  unfold incrPhr
  rw [retrieve_long db h]
  exact putData_long db c h

theorem key_eq (s t s' t' : Phrase) : ((toLex (t', s') : Key) = toLex (t, s)) ↔ s' = s ∧ t' = t := by
  constructor
  · intro h
    have : (t', s') = (t, s) := toLex.injective h
    injection this with a b
    exact ⟨b, a⟩
  · rintro ⟨rfl, rfl⟩; rfl

theorem cnt_ins {db : Db} (hs : SMap.Sorted db) (s t s' t' : Phrase) (v : Val) :
    cnt (SMap.ins db (toLex (t, s)) v) s' t' = if s' = s ∧ t' = t then some v.count else cnt db s' t' := by
  unfold cnt
  rw [SMap.get_ins hs]
  by_cases h : s' = s ∧ t' = t
  · rw [if_pos ((key_eq s t s' t').2 h), if_pos h]; rfl
  · rw [if_neg (fun c => h ((key_eq s t s' t').1 c)), if_neg h]

/-! ### Invariant -/

/-- The pairs that add to the record of (s,t). -/
def recP (s t : Phrase) : Phrase → Phrase → Bool := fun s' t' => (s = [] ∨ s' = s) ∧ (t = [] ∨ t' = t)

/-- The count of a record, if there is one. -/
def total (p : Phrase → Phrase → Bool) (h : List Op) : Option Rat := if added p h = [] then none else some (added p h).sum

structure Inv (db : Db) (h : List Op) : Prop where
  sorted : SMap.Sorted db
  keys : ∀ s t, (toLex (t, s) : Key) ∈ SMap.keys db → 2 ∉ s ∧ s.length + t.length ≤ 20
  count : ∀ s t, 2 ∉ s → s.length + t.length ≤ 20 → (s ≠ [] ∨ t ≠ []) → cnt db s t = total (recP s t) h
  flagDef : (cnt db [] []).isSome
  fast : flag db = true → ∀ s t v, s ≠ [] → t ≠ [] → SMap.get db (toLex (t, s)) = some v → cnt db s [] = some v.aux

theorem flag_eq (db : Db) : flag db = decide ((cnt db [] []).getD 0 > 0) := by
  unfold flag cnt
  rw [retrieve_ok db (by simp) (by simp)]
  cases SMap.get db (toLex ([], [])) with
  | none => simp
  | some v => rfl

theorem added_snoc (p : Phrase → Phrase → Bool) (h : List Op) (s t : Phrase) (c : Rat) :
    added p (h ++ [.incr s t c]) = added p h ++ if p s t then [c] else [] := by
  unfold added
  rw [List.filterMap_append]
  congr 1
  by_cases hp : p s t = true
  · simp [hp]
  · simp [hp]

theorem added_enable (p : Phrase → Phrase → Bool) (h : List Op) : added p (h ++ [.enable]) = added p h := by
  unfold added
  rw [List.filterMap_append]
  simp

theorem total_snoc (p : Phrase → Phrase → Bool) (h : List Op) (s t : Phrase) (c : Rat) :
    total p (h ++ [.incr s t c]) = if p s t then some ((total p h).getD 0 + c) else total p h := by
  unfold total
  rw [added_snoc]
  by_cases hp : p s t = true
  · rw [if_pos hp, if_pos hp, if_neg (by simp), List.sum_append]
    by_cases he : added p h = []
    · rw [if_pos he, he]; simp [Rat.add_zero]
    · rw [if_neg he]; simp [Rat.add_zero]
  · rw [if_neg hp, if_neg hp, List.append_nil]

theorem total_enable (p : Phrase → Phrase → Bool) (h : List Op) : total p (h ++ [.enable]) = total p h := by
  unfold total; rw [added_enable]

theorem inv_nil : Inv (init none) [] := by
  have he : init none = SMap.ins [] (toLex ([], [])) ⟨0, 0⟩ := by
    show (if (retrieve [] [] []).isSome then _ else setFlag [] 0) = _
    rw [retrieve_ok [] (by simp) (by simp), if_neg (by simp [SMap.get])]
    exact putData_ok [] 0 (by simp) (by simp)
  rw [he]
  have hc : ∀ s t, cnt (SMap.ins [] (toLex ([], [])) ⟨0, 0⟩) s t = if s = [] ∧ t = [] then some 0 else none := by
    intro s t
    exact cnt_ins SMap.sorted_nil [] [] s t ⟨0, 0⟩
  refine ⟨SMap.sorted_ins SMap.sorted_nil _ _, ?_, ?_, ?_, ?_⟩
  · intro s t hk
    rcases (SMap.mem_keys_ins _ _ _ _).1 hk with h | h
    · obtain ⟨rfl, rfl⟩ := (key_eq _ _ _ _).1 h; simp
    · cases h
  · intro s t _ _ hne
    rw [hc, if_neg (by rintro ⟨rfl, rfl⟩; simp at hne)]
    rfl
  · rw [hc]; rfl
  · intro hf
    rw [flag_eq, hc] at hf
    simp at hf

theorem sorted_incr {db : Db} (hs : SMap.Sorted db) (s t : Phrase) (c : Rat) (h2 : 2 ∉ s) : SMap.Sorted (incrPhr db s t c) := by
  by_cases h : s.length + t.length ≤ 20
  · rw [incrPhr_ok db c h h2]; exact SMap.sorted_ins hs _ _
  · rw [incrPhr_long db c h]; exact hs

theorem cnt_incr {db : Db} (hs : SMap.Sorted db) (s t : Phrase) (c : Rat) (h2 : 2 ∉ s) (s' t' : Phrase) (hl : s'.length + t'.length ≤ 20) :
    cnt (incrPhr db s t c) s' t' = if s' = s ∧ t' = t then some ((cnt db s' t').getD 0 + c) else cnt db s' t' := by
  by_cases h : s.length + t.length ≤ 20
  · rw [incrPhr_ok db c h h2, cnt_ins hs]
    by_cases he : s' = s ∧ t' = t
    · rw [if_pos he, if_pos he, he.1, he.2]
    · rw [if_neg he, if_neg he]
  · rw [incrPhr_long db c h, if_neg (by rintro ⟨rfl, rfl⟩; exact h hl)]

theorem keys_incr (db : Db) (s t : Phrase) (c : Rat) (h2 : 2 ∉ s) (s' t' : Phrase) (hk : (toLex (t', s') : Key) ∈ SMap.keys (incrPhr db s t c)) :
    (s' = s ∧ t' = t ∧ s.length + t.length ≤ 20) ∨ (toLex (t', s') : Key) ∈ SMap.keys db := by
  by_cases h : s.length + t.length ≤ 20
  · rw [incrPhr_ok db c h h2] at hk
    rcases (SMap.mem_keys_ins _ _ _ _).1 hk with he | he
    · obtain ⟨a, b⟩ := (key_eq _ _ _ _).1 he; exact .inl ⟨a, b, h⟩
    · exact .inr he
  · rw [incrPhr_long db c h] at hk; exact .inr hk

theorem setFlag_eq (db : Db) (x : Rat) : setFlag db x = SMap.ins db (toLex ([], [])) ⟨x, 0⟩ := putData_ok db x (by simp) (by simp)

theorem inv_incr {db : Db} {h : List Op} (hi : Inv db h) (s t : Phrase) (c : Rat) (ho : OpOk (.incr s t c)) :
    Inv (incrCounts db s t c) (h ++ [.incr s t c]) := by
  obtain ⟨hs, ht, h2⟩ := ho
  have s0 : SMap.Sorted (setFlag db 0) := by rw [setFlag_eq]; exact SMap.sorted_ins hi.sorted _ _
  have s1 := sorted_incr s0 s t c h2
  have s2 := sorted_incr s1 s [] c h2
  have s3 := sorted_incr s2 [] t c (by simp)
  have c0 : ∀ s' t', cnt (setFlag db 0) s' t' = if s' = [] ∧ t' = [] then some 0 else cnt db s' t' := by
    intro s' t'; rw [setFlag_eq, cnt_ins hi.sorted]
  have hcnt : ∀ s' t', s'.length + t'.length ≤ 20 → cnt (incrCounts db s t c) s' t' =
      if s' = [] ∧ t' = [] then some 0 else if recP s' t' s t then some ((cnt db s' t').getD 0 + c) else cnt db s' t' := by
    intro s' t' hl
    unfold incrCounts
    rw [cnt_incr s2 [] t c (by simp) s' t' hl, cnt_incr s1 s [] c h2 s' t' hl, cnt_incr s0 s t c h2 s' t' hl, c0]
    by_cases hz : s' = [] ∧ t' = []
    · obtain ⟨rfl, rfl⟩ := hz
      rw [if_neg (by simp [ht.symm]), if_neg (by simp [hs.symm]), if_neg (by simp [hs.symm]), if_pos (by simp), if_pos (by simp)]
    · rw [if_neg hz, if_neg hz]
      by_cases ha : s' = [] ∧ t' = t
      · obtain ⟨rfl, rfl⟩ := ha
        rw [if_pos (by simp), if_neg (by simp [hs.symm]), if_neg (by simp [hs.symm]), if_pos (by simp [recP])]
      · rw [if_neg ha]
        by_cases hb : s' = s ∧ t' = []
        · obtain ⟨rfl, rfl⟩ := hb
          rw [if_pos (by simp), if_neg (by simp [ht.symm]), if_pos (by simp [recP])]
        · rw [if_neg hb]
          by_cases hc : s' = s ∧ t' = t
          · obtain ⟨rfl, rfl⟩ := hc
            rw [if_pos (by simp), if_pos (by simp [recP])]
          · rw [if_neg hc, if_neg]
            intro hr
            simp only [recP, decide_eq_true_eq] at hr
            rcases hr with ⟨h1 | h1, h3 | h3⟩
            · exact hz ⟨h1, h3⟩
            · exact ha ⟨h1, h3.symm⟩
            · exact hb ⟨h1.symm, h3⟩
            · exact hc ⟨h1.symm, h3.symm⟩
  refine ⟨s3, ?_, ?_, ?_, ?_⟩
  · intro s' t' hk
    rcases keys_incr _ [] t c (by simp) s' t' hk with ⟨rfl, rfl, hl⟩ | hk
    · exact ⟨by simp, hl⟩
    · rcases keys_incr _ s [] c h2 s' t' hk with ⟨rfl, rfl, hl⟩ | hk
      · exact ⟨h2, hl⟩
      · rcases keys_incr _ s t c h2 s' t' hk with ⟨rfl, rfl, hl⟩ | hk
        · exact ⟨h2, hl⟩
        · rw [setFlag_eq] at hk
          rcases (SMap.mem_keys_ins _ _ _ _).1 hk with he | he
          · obtain ⟨rfl, rfl⟩ := (key_eq _ _ _ _).1 he; simp
          · exact hi.keys s' t' he
  · intro s' t' h2' hl hne
    rw [hcnt s' t' hl, if_neg (by rintro ⟨rfl, rfl⟩; simp at hne), total_snoc, hi.count s' t' h2' hl hne]
  · rw [hcnt [] [] (by simp)]; rfl
  · intro hf
    rw [flag_eq, hcnt [] [] (by simp)] at hf
    simp at hf

theorem get_map (db : Db) (f : Key × Val → Key × Val) (hf : ∀ e, (f e).1 = e.1) (k : Key) :
    SMap.get (db.map f) k = (SMap.get db k).map fun v => (f (k, v)).2 := by
  induction db with
  | nil => rfl
  | cons e r ih =>
    rw [List.map_cons, SMap.get, SMap.get, hf]
    by_cases h : e.1 = k
    · rw [if_pos h, if_pos h, ← h]; rfl
    · rw [if_neg h, if_neg h, ih]

theorem refresh_fst (db : Db) (e : Key × Val) : (refresh db e).1 = e.1 := by
  unfold refresh
  split
  · split <;> rfl
  · rfl

theorem refresh_count (db : Db) (e : Key × Val) : (refresh db e).2.count = e.2.count := by
  unfold refresh
  split
  · split <;> rfl
  · rfl

theorem keys_map (db : Db) (f : Key × Val → Key × Val) (hf : ∀ e, (f e).1 = e.1) : SMap.keys (db.map f) = SMap.keys db := by
  unfold SMap.keys
  rw [List.map_map]
  exact List.map_congr_left fun e _ => hf e

theorem cnt_map (db db0 : Db) (s t : Phrase) : cnt (db.map (refresh db0)) s t = cnt db s t := by
  unfold cnt
  rw [get_map _ _ (refresh_fst db0), Option.map_map]
  congr 1
  funext v
  exact refresh_count _ _

theorem recP_src {s t : Phrase} {a b : Phrase} (h : recP s t a b = true) : recP s [] a b = true := by
  simp only [recP, decide_eq_true_eq, true_or, and_true] at h ⊢
  exact h.1

theorem total_some_iff (p : Phrase → Phrase → Bool) (h : List Op) : (total p h).isSome ↔ ∃ s t c, Op.incr s t c ∈ h ∧ p s t = true := by
  unfold total
  have key : added p h ≠ [] ↔ ∃ s t c, Op.incr s t c ∈ h ∧ p s t = true := by
    unfold added
    constructor
    · intro hne
      obtain ⟨x, hx⟩ := List.exists_mem_of_ne_nil _ hne
      obtain ⟨o, ho, he⟩ := List.mem_filterMap.1 hx
      cases o with
      | incr s t c =>
        refine ⟨s, t, c, ho, ?_⟩
        by_contra hp
        simp [hp] at he
      | enable => cases he
    · rintro ⟨s, t, c, hm, hp⟩ he
      have : c ∈ ([] : List Rat) := by
        rw [← he]
        exact List.mem_filterMap.2 ⟨_, hm, by simp [hp]⟩
      cases this
  by_cases he : added p h = []
  · rw [if_pos he]
    simp only [Option.isSome_none, Bool.false_eq_true, false_iff]
    exact fun c => key.2 c he
  · rw [if_neg he]
    simp only [Option.isSome_some, true_iff]
    exact key.1 he

theorem inv_enable {db : Db} {h : List Op} (hi : Inv db h) : Inv (enable db) (h ++ [.enable]) := by
  have hcount : ∀ s t, total (recP s t) (h ++ [.enable]) = total (recP s t) h := fun s t => total_enable _ _
  unfold enable
  by_cases hf : flag db = true
  · rw [if_pos hf]
    refine ⟨hi.sorted, hi.keys, ?_, hi.flagDef, hi.fast⟩
    intro s t a b c
    rw [hcount]; exact hi.count s t a b c
  · rw [if_neg hf, setFlag_eq]
    have sm : SMap.Sorted (db.map (refresh db)) := by
      unfold SMap.Sorted; rw [keys_map _ _ (refresh_fst db)]; exact hi.sorted
    have hc : ∀ s t, cnt (SMap.ins (db.map (refresh db)) (toLex ([], [])) ⟨1, 0⟩) s t = if s = [] ∧ t = [] then some 1 else cnt db s t := by
      intro s t; rw [cnt_ins sm, cnt_map]
    refine ⟨SMap.sorted_ins sm _ _, ?_, ?_, ?_, ?_⟩
    · intro s t hk
      rcases (SMap.mem_keys_ins _ _ _ _).1 hk with he | he
      · obtain ⟨rfl, rfl⟩ := (key_eq _ _ _ _).1 he; simp
      · rw [keys_map _ _ (refresh_fst db)] at he; exact hi.keys s t he
    · intro s t a b c
      rw [hc, if_neg (by rintro ⟨rfl, rfl⟩; simp at c), hcount]
      exact hi.count s t a b c
    · rw [hc]; rfl
    · intro _ s t v hs ht hg
      rw [hc, if_neg (by simp [hs])]
      rw [SMap.get_ins sm, if_neg (fun c => hs ((key_eq _ _ _ _).1 c).1), get_map _ _ (refresh_fst db)] at hg
      obtain ⟨v0, hg0, rfl⟩ := Option.map_eq_some_iff.1 hg
      have hk : (toLex (t, s) : Key) ∈ SMap.keys db := SMap.get_isSome_iff.1 (by rw [hg0]; rfl)
      obtain ⟨h2, hl⟩ := hi.keys s t hk
      have h1 : cnt db s t = total (recP s t) h := hi.count s t h2 hl (.inl hs)
      have h1s : (total (recP s t) h).isSome := by rw [← h1]; unfold cnt; rw [hg0]; rfl
      obtain ⟨a, b, c, hm, hp⟩ := (total_some_iff _ _).1 h1s
      have hls : s.length + ([] : Phrase).length ≤ 20 := by simp only [List.length_nil]; omega
      have h3 : (cnt db s []).isSome := by
        rw [hi.count s [] h2 hls (.inl hs)]
        exact (total_some_iff _ _).2 ⟨a, b, c, hm, recP_src hp⟩
      have hr : retrieve db s [] = SMap.get db (toLex ([], s)) := retrieve_ok db hls h2
      unfold cnt at h3 ⊢
      cases hw : SMap.get db (toLex ([], s)) with
      | none => rw [hw] at h3; cases h3
      | some w =>
        unfold refresh
        rw [if_pos (show (ofLex (toLex (t, s))).2 ≠ [] ∧ (ofLex (toLex (t, s))).1 ≠ [] from ⟨hs, ht⟩)]
        show _ = some (match retrieve db s [] with | some v => (_, (⟨v0.count, v.count⟩ : Val)) | none => (_, v0)).2.aux
        rw [hr, hw]
        rfl

theorem inv_step {db : Db} {h : List Op} (hi : Inv db h) (o : Op) (ho : OpOk o) : Inv (step db o) (h ++ [o]) := by
  cases o with
  | incr s t c => exact inv_incr hi s t c ho
  | enable => exact inv_enable hi

theorem inv_fold (ops : List Op) : ∀ (db : Db) (h : List Op), Inv db h → (∀ o ∈ ops, OpOk o) → Inv (ops.foldl step db) (h ++ ops) := by
  induction ops with
  | nil => intro db h hi _; rw [List.append_nil]; exact hi
  | cons o ops ih =>
    intro db h hi ho
    rw [List.foldl_cons, show h ++ o :: ops = (h ++ [o]) ++ ops by simp]
    exact ih _ _ (inv_step hi o (ho o List.mem_cons_self)) (fun x hx => ho x (List.mem_cons_of_mem _ hx))

theorem inv_run (h : List Op) (ho : ∀ o ∈ h, OpOk o) : Inv (run h) h := by
  have := inv_fold h _ [] inv_nil ho
  rwa [List.nil_append] at this

/-! ### C226 -/

theorem recP_pair {s t : Phrase} (hs : s ≠ []) (ht : t ≠ []) : recP s t = fun s' t' => decide (s' = s ∧ t' = t) := by
  funext a b; simp [recP, hs, ht]
theorem recP_s {s : Phrase} (hs : s ≠ []) : recP s [] = fun s' _ => decide (s' = s) := by
  funext a b; simp [recP, hs]
theorem recP_t {t : Phrase} (ht : t ≠ []) : recP [] t = fun _ t' => decide (t' = t) := by
  funext a b; simp [recP, ht]

theorem found_eq (db : Db) (s t : Phrase) (hl : s.length + t.length ≤ 20) (h2 : 2 ∉ s) : found (retrieve db s t) = ((cnt db s t).getD 0, (cnt db s t).isSome) := by
  rw [retrieve_ok db hl h2]
  unfold cnt
  cases SMap.get db (toLex (t, s)) <;> rfl

theorem total_sum (p : Phrase → Phrase → Bool) (h : List Op) : (total p h).getD 0 = (added p h).sum := by
  unfold total
  by_cases he : added p h = []
  · rw [if_pos he, he]; rfl
  · rw [if_neg he]; rfl

theorem found_total {db : Db} {h : List Op} (hi : Inv db h) (s t : Phrase) (hl : s.length + t.length ≤ 20) (h2 : 2 ∉ s) (hne : s ≠ [] ∨ t ≠ []) :
    (found (retrieve db s t)).1 = (added (recP s t) h).sum ∧
    ((found (retrieve db s t)).2 = true ↔ ∃ a b c, Op.incr a b c ∈ h ∧ recP s t a b = true) := by
  rw [found_eq db s t hl h2, hi.count s t h2 hl hne]
  exact ⟨total_sum _ _, total_some_iff _ _⟩

/-- **C226 (counts, what holds).** After any history, the counts of pairs of at most 20 words in all, and of phrases of at most 20 words, are the sums
of the counts added, and are reported as found exactly if some count was added. Longer ones are never found. -/
theorem C226_counts_partial (h : List Op) (ho : ∀ o ∈ h, OpOk o) (s t : Phrase) (hs : s ≠ []) (ht : t ≠ []) (h2 : 2 ∉ s) :
    (s.length + t.length ≤ 20 → (getSrcTrg (run h) s t).1 = sumPair h s t ∧ ((getSrcTrg (run h) s t).2 = true ↔ HasPair h s t)) ∧
    (s.length ≤ 20 → (getSrc (run h) s).1 = sumSrc h s ∧ ((getSrc (run h) s).2 = true ↔ HasSrc h s)) ∧
    (t.length ≤ 20 → (getTrg (run h) t).1 = sumTrg h t ∧ ((getTrg (run h) t).2 = true ↔ HasTrg h t)) ∧
    (20 < s.length + t.length → getSrcTrg (run h) s t = (0, false)) ∧ (20 < s.length → getSrc (run h) s = (0, false)) ∧
    (20 < t.length → getTrg (run h) t = (0, false)) := by
  have hi := inv_run h ho
  refine ⟨?_, ?_, ?_, ?_, ?_, ?_⟩
  · intro hl
    obtain ⟨a, b⟩ := found_total hi s t hl h2 (.inl hs)
    rw [recP_pair hs ht] at a b
    refine ⟨a, b.trans ?_⟩
    simp only [decide_eq_true_eq]
    exact ⟨fun ⟨_, _, c, hm, e1, e2⟩ => ⟨c, e1 ▸ e2 ▸ hm⟩, fun ⟨c, hm⟩ => ⟨_, _, c, hm, rfl, rfl⟩⟩
  · intro hl
    obtain ⟨a, b⟩ := found_total hi s [] (by simpa using hl) h2 (.inl hs)
    rw [recP_s hs] at a b
    refine ⟨a, b.trans ?_⟩
    simp only [decide_eq_true_eq]
    exact ⟨fun ⟨_, b', c, hm, e1⟩ => ⟨b', c, e1 ▸ hm⟩, fun ⟨b', c, hm⟩ => ⟨_, b', c, hm, rfl⟩⟩
  · intro hl
    obtain ⟨a, b⟩ := found_total hi [] t (by simpa using hl) (by simp) (.inr ht)
    rw [recP_t ht] at a b
    refine ⟨a, b.trans ?_⟩
    simp only [decide_eq_true_eq]
    exact ⟨fun ⟨a', _, c, hm, e1⟩ => ⟨a', c, e1 ▸ hm⟩, fun ⟨a', c, hm⟩ => ⟨a', _, c, hm, rfl⟩⟩
  · intro hl; unfold getSrcTrg; rw [retrieve_long _ (by omega)]; rfl
  · intro hl; unfold getSrc; rw [retrieve_long _ (by simp only [List.length_nil]; omega)]; rfl
  · intro hl; unfold getTrg; rw [retrieve_long _ (by simp only [List.length_nil]; omega)]; rfl

/-- False of the code: the joint count of a pair of 11 and 10 words is lost although the counts of its phrases are stored. -/
theorem C226_counterexample : ¬ C226_full := by
  intro h
  have := (h [.incr (List.replicate 11 5) (List.replicate 10 6) 1] (by simp [OpOk, List.replicate]) (List.replicate 11 5) (List.replicate 10 6)
    (by simp [List.replicate]) (by simp [List.replicate]) (by simp)).1
  have e : getSrcTrg (run [.incr (List.replicate 11 5) (List.replicate 10 6) 1]) (List.replicate 11 5) (List.replicate 10 6) = (0, false) := by
    unfold getSrcTrg; rw [retrieve_long _ (by simp)]; rfl
  rw [e] at this
  have e2 : sumPair [.incr (List.replicate 11 5) (List.replicate 10 6) 1] (List.replicate 11 5) (List.replicate 10 6) = 1 := by
    unfold sumPair added
    simp [Rat.add_zero]
  rw [e2] at this
  exact absurd this (by decide +kernel)

/-! ### Entries of a target phrase -/

theorem readKey_nil (s t : Phrase) (h2 : 2 ∉ s) : readKey [] (toLex (t, s)) = (s, t) := by
  show decode ((s ++ 2 :: t) ++ [].drop _) = _
  rw [List.drop_nil, List.append_nil, decode_sep s t h2]

/-- What is left of the previous key in the buffer does not make a later target phrase look like the one searched. -/
theorem readKey_other (s t t0 : Phrase) (h2 : 2 ∉ s) (hlt : t0 < t) : (readKey (2 :: t0) (toLex (t, s))).2 ≠ t0 := by
  show (decode ((s ++ 2 :: t) ++ (2 :: t0).drop (s ++ 2 :: t).length)).2 ≠ t0
  rw [List.append_assoc, List.cons_append, decode_sep _ _ h2]
  intro he
  have hle : ∀ (u r : Phrase), u ≤ u ++ r := by
    intro u r
    refine not_lt.1 fun c => ?_
    induction u with
    | nil => exact List.not_lt_nil _ c
    | cons a u ih =>
      rw [List.cons_append, List.cons_lt_cons_iff] at c
      rcases c with c | ⟨_, c⟩
      · exact lt_irrefl _ c
      · exact ih c
  have h3 := hle t ((2 :: t0).drop (s ++ 2 :: t).length)
  rw [show t ++ (2 :: t0).drop (s ++ 2 :: t).length = t0 from he] at h3
  exact absurd (lt_of_lt_of_le hlt h3) (lt_irrefl _)

/-- The entry given for a record. -/
def entOf (t : Phrase) (tc : Rat) (e : Key × Val) : Option (Phrase × (Rat × Rat)) :=
  if (ofLex e.1).1 = t ∧ (ofLex e.1).2 ≠ [] then some ((ofLex e.1).2, (tc, e.2.count)) else none

theorem scan_eq (t : Phrase) (tc : Rat) : ∀ l : Db, SMap.Sorted l → (∀ e ∈ l, 2 ∉ (ofLex e.1).2 ∧ ¬ (ofLex e.1).1 < t) → scan t tc l = l.filterMap (entOf t tc)
  | [], _, _ => rfl
  | e :: r, hs, hk => by
    obtain ⟨h1, h2⟩ := List.pairwise_cons.1 hs
    have he := hk e List.mem_cons_self
    have hread : readKey [] e.1 = ((ofLex e.1).2, (ofLex e.1).1) := readKey_nil (ofLex e.1).2 (ofLex e.1).1 he.1
    rw [scan, hread, List.filterMap_cons]
    by_cases ht : (ofLex e.1).1 = t
    · rw [if_pos ht, scan_eq t tc r h2 (fun x hx => hk x (List.mem_cons_of_mem _ hx))]
      by_cases hn : (ofLex e.1).2 ≠ []
      · rw [if_pos hn]
        have : entOf t tc e = some ((ofLex e.1).2, (tc, e.2.count)) := if_pos ⟨ht, hn⟩
        rw [this]; rfl
      · rw [if_neg hn]
        have : entOf t tc e = none := if_neg (fun c => hn c.2)
        rw [this]; rfl
    · rw [if_neg ht]
      have : entOf t tc e = none := if_neg (fun c => ht c.1)
      rw [this]
      show [] = _
      symm
      rw [List.filterMap_eq_nil_iff]
      intro x hx
      refine if_neg (fun c => ?_)
      have hlt : e.1 < x.1 := h1 x.1 (List.mem_map.2 ⟨x, hx, rfl⟩)
      rw [Prod.Lex.lt_iff] at hlt
      have hgt : t < (ofLex e.1).1 := lt_of_le_of_ne (not_lt.1 he.2) (fun c => ht c.symm)
      rcases hlt with hlt | ⟨hlt, _⟩
      · rw [c.1] at hlt; exact lt_irrefl _ (lt_trans hlt hgt)
      · rw [hlt, c.1] at hgt; exact lt_irrefl _ hgt

theorem get_mem {db : Db} (hs : SMap.Sorted db) (e : Key × Val) (he : e ∈ db) : SMap.get db e.1 = some e.2 := by
  induction db with
  | nil => cases he
  | cons a r ih =>
    obtain ⟨h1, h2⟩ := List.pairwise_cons.1 hs
    rw [SMap.get]
    rcases List.mem_cons.1 he with rfl | he
    · rw [if_pos rfl]
    · rw [if_neg, ih h2 he]
      exact ne_of_lt (h1 e.1 (List.mem_map.2 ⟨e, he, rfl⟩))

theorem mem_get {db : Db} (k : Key) (v : Val) (hg : SMap.get db k = some v) : (k, v) ∈ db := by
  induction db with
  | nil => cases hg
  | cons a r ih =>
    rw [SMap.get] at hg
    by_cases h : a.1 = k
    · rw [if_pos h] at hg; cases hg; rw [← h]; exact List.mem_cons_self
    · rw [if_neg h] at hg; exact List.mem_cons_of_mem _ (ih hg)

/-- The entries are those of the records of the target phrase. -/
theorem entries_eq {db : Db} {h : List Op} (hi : Inv db h) (t : Phrase) (ht : t ≠ []) :
    (getEntries db t).1 = db.filterMap (entOf t ((cnt db [] t).getD 0)) := by
  have hkey : ∀ e ∈ db, 2 ∉ (ofLex e.1).2 ∧ (ofLex e.1).2.length + (ofLex e.1).1.length ≤ 20 :=
    fun e he => hi.keys (ofLex e.1).2 (ofLex e.1).1 (List.mem_map.2 ⟨e, he, rfl⟩)
  by_cases hl : t.length ≤ 20
  · have hw : (words [] t).getD [] = 2 :: t := by rw [words_ok (by simpa using hl)]; rfl
    have hkw : keyOf (2 :: t) = toLex (t, []) := keyOf_sep [] t (by simp)
    -- records before the first one are of smaller target phrases
    have hsplit : db.filterMap (entOf t ((cnt db [] t).getD 0)) =
        (db.filter (fun e => ! decide (e.1 < keyOf (2 :: t)))).filterMap (entOf t ((cnt db [] t).getD 0)) := by
      rw [List.filterMap_filter]
      refine List.filterMap_congr fun e he => ?_
      by_cases hlt : e.1 < keyOf (2 :: t)
      · simp only [hlt, decide_true, Bool.not_true, Bool.false_eq_true, if_false]
        refine if_neg (fun c => ?_)
        rw [hkw, Prod.Lex.lt_iff] at hlt
        rcases hlt with hlt | ⟨_, hlt⟩
        · have : (ofLex e.1).1 < t := hlt
          rw [c.1] at this; exact lt_irrefl _ this
        · exact List.not_lt_nil _ hlt
      · simp only [hlt, decide_false, Bool.not_false, if_true]
    have hge : ∀ e ∈ db.filter (fun e => ! decide (e.1 < keyOf (2 :: t))), 2 ∉ (ofLex e.1).2 ∧ ¬ (ofLex e.1).1 < t := by
      intro e he
      obtain ⟨hm, hc⟩ := List.mem_filter.1 he
      refine ⟨(hkey e hm).1, ?_⟩
      intro c
      simp only [Bool.not_eq_true', decide_eq_false_iff_not, hkw] at hc
      exact hc (by rw [Prod.Lex.lt_iff]; exact .inl c)
    have hsort : SMap.Sorted (db.filter (fun e => ! decide (e.1 < keyOf (2 :: t)))) := by
      unfold SMap.Sorted SMap.keys
      have := hi.sorted
      unfold SMap.Sorted SMap.keys at this
      rw [List.pairwise_map] at this ⊢
      exact this.filter _
    rw [hsplit]
    unfold getEntries
    simp only [hw]
    generalize hL : db.filter (fun e => ! decide (e.1 < keyOf (2 :: t))) = L at *
    cases L with
    | nil => rfl
    | cons e r =>
      show (if (readKey (2 :: t) e.1).2 = t then _ else []) = _
      have he := hge e List.mem_cons_self
      obtain ⟨hs1, hs2⟩ := List.pairwise_cons.1 hsort
      have hem : e ∈ db := (List.mem_filter.1 (hL ▸ List.mem_cons_self : e ∈ db.filter _)).1
      by_cases het : (ofLex e.1).1 = t
      · -- the record of the target phrase is the first one
        have hrec : (cnt db [] t).isSome := by
          rw [hi.count [] t (by simp) (by simpa using hl) (.inr ht)]
          have hce : cnt db (ofLex e.1).2 (ofLex e.1).1 = total (recP (ofLex e.1).2 (ofLex e.1).1) h :=
            hi.count _ _ (hkey e hem).1 (hkey e hem).2 (.inr (by rw [het]; exact ht))
          have hsome : (cnt db (ofLex e.1).2 (ofLex e.1).1).isSome := by
            unfold cnt
            rw [show (toLex ((ofLex e.1).1, (ofLex e.1).2) : Key) = e.1 from rfl, get_mem hi.sorted e hem]; rfl
          rw [hce, total_some_iff] at hsome
          obtain ⟨a, b, c, hm, hp⟩ := hsome
          refine (total_some_iff _ _).2 ⟨a, b, c, hm, ?_⟩
          simp only [recP, decide_eq_true_eq, true_or, true_and] at hp ⊢
          rw [het] at hp
          exact hp.2
        unfold cnt at hrec
        cases hv : SMap.get db (toLex (t, [])) with
        | none => rw [hv] at hrec; cases hrec
        | some v =>
          have hmem : ((toLex (t, []) : Key), v) ∈ db := mem_get _ _ hv
          have hmf : ((toLex (t, []) : Key), v) ∈ e :: r := by
            rw [← hL]
            refine List.mem_filter.2 ⟨hmem, ?_⟩
            rw [hkw]
            simp
          have hee : e = ((toLex (t, []) : Key), v) := by
            rcases List.mem_cons.1 hmf with c | c
            · exact c.symm
            · have hlt : e.1 < (toLex (t, []) : Key) := hs1 _ (List.mem_map.2 ⟨_, c, rfl⟩)
              rw [Prod.Lex.lt_iff] at hlt
              rcases hlt with hlt | ⟨_, hlt⟩
              · exact absurd hlt he.2
              · exact absurd hlt (List.not_lt_nil _)
          subst hee
          have hread : readKey (2 :: t) (toLex (t, [])) = ([], t) := by
            show decode (([] ++ 2 :: t) ++ (2 :: t).drop ([] ++ 2 :: t).length) = _
            rw [List.nil_append, List.drop_length, List.append_nil]
            exact decode_sep [] t (by simp)
          simp only [hread]
          rw [if_pos True.intro, if_neg (by simp), List.nil_append]
          rw [scan_eq t _ r hs2 (fun x hx => hge x (List.mem_cons_of_mem _ hx)), List.filterMap_cons]
          have hn : entOf t ((cnt db [] t).getD 0) ((toLex (t, []) : Key), v) = none := if_neg (fun c => c.2 rfl)
          rw [hn]
          have : (cnt db [] t).getD 0 = v.count := by unfold cnt; rw [hv]; rfl
          rw [this]
      · have hgt : t < (ofLex e.1).1 := lt_of_le_of_ne (not_lt.1 he.2) (fun c => het c.symm)
        have hother : (readKey (2 :: t) e.1).2 ≠ t := readKey_other (ofLex e.1).2 (ofLex e.1).1 t he.1 hgt
        rw [if_neg hother]
        rw [← scan_eq t _ (e :: r) hsort hge, scan]
        have hread : readKey [] e.1 = ((ofLex e.1).2, (ofLex e.1).1) := readKey_nil (ofLex e.1).2 (ofLex e.1).1 he.1
        rw [hread, if_neg het]
  · have hw : (words [] t).getD [] = [] := by rw [words_long (by simpa using hl)]; rfl
    have hne : ∀ e ∈ db, (ofLex e.1).1 ≠ t := by
      intro e he c
      have := (hkey e he).2
      rw [c] at this
      omega
    have hr : db.filterMap (entOf t ((cnt db [] t).getD 0)) = [] := by
      rw [List.filterMap_eq_nil_iff]
      intro e he
      exact if_neg (fun c => hne e he c.1)
    rw [hr]
    unfold getEntries
    simp only [hw]
    cases hL : db.filter (fun e => ! decide (e.1 < keyOf [])) with
    | nil => rfl
    | cons e r =>
      have hem : e ∈ db := (List.mem_filter.1 (hL ▸ List.mem_cons_self : e ∈ db.filter _)).1
      have hread : readKey [] e.1 = ((ofLex e.1).2, (ofLex e.1).1) := readKey_nil (ofLex e.1).2 (ofLex e.1).1 (hkey e hem).1
      show (if (readKey [] e.1).2 = t then _ else []) = []
      rw [hread, if_neg (hne e hem)]

theorem getEntries_snd (db : Db) (t : Phrase) : (getEntries db t).2 = !(getEntries db t).1.isEmpty := by
  unfold getEntries
  simp only
  cases db.filter (fun e => ! decide (e.1 < keyOf ((words [] t).getD []))) <;> rfl

/-- **C226 (entries).** The entries of a target phrase are, in order and each once, the source phrases of the pairs that were added and have at
most 20 words, each with the count of the target phrase and the count of the pair. -/
theorem C226_entries (h : List Op) (ho : ∀ o ∈ h, OpOk o) (t : Phrase) (ht : t ≠ []) :
    ((getEntries (run h) t).1.map Prod.fst).Pairwise (· < ·) ∧
    (∀ s x y, (s, (x, y)) ∈ (getEntries (run h) t).1 ↔ HasPair h s t ∧ s.length + t.length ≤ 20 ∧ x = sumTrg h t ∧ y = sumPair h s t) ∧
    ((getEntries (run h) t).2 = true ↔ ∃ s, HasPair h s t ∧ s.length + t.length ≤ 20) := by
  have hi := inv_run h ho
  have hmem : ∀ s x y, (s, (x, y)) ∈ (getEntries (run h) t).1 ↔ HasPair h s t ∧ s.length + t.length ≤ 20 ∧ x = sumTrg h t ∧ y = sumPair h s t := by
    intro s x y
    rw [entries_eq hi t ht, List.mem_filterMap]
    constructor
    · rintro ⟨e, he, hx⟩
      unfold entOf at hx
      by_cases hc : (ofLex e.1).1 = t ∧ (ofLex e.1).2 ≠ []
      · rw [if_pos hc] at hx
        obtain ⟨hc1, hc2⟩ := hc
        injection hx with hx
        injection hx with hx1 hx2
        injection hx2 with hx2 hx3
        have hkk : e.1 = (toLex (t, s) : Key) := by rw [← hc1, ← hx1]; rfl
        have hk := hi.keys s t (by rw [← hkk]; exact List.mem_map.2 ⟨e, he, rfl⟩)
        have hs : s ≠ [] := hx1 ▸ hc2
        obtain ⟨p1, _, p3, _⟩ := C226_counts_partial h ho s t hs ht hk.1
        have hg := get_mem hi.sorted e he
        have hfe : getSrcTrg (run h) s t = (e.2.count, true) := by
          unfold getSrcTrg; rw [retrieve_ok _ hk.2 hk.1, ← hkk, hg]; rfl
        refine ⟨(p1 hk.2).2.1 (by rw [hfe]), hk.2, ?_, ?_⟩
        · rw [← hx2, ← (p3 (by omega)).1]
          unfold getTrg
          rw [found_eq _ [] t (by simp only [List.length_nil]; omega) (by simp)]
        · rw [← hx3, ← (p1 hk.2).1, hfe]
      · rw [if_neg hc] at hx; cases hx
    · rintro ⟨hp, hl, rfl, rfl⟩
      have hp' := hp
      obtain ⟨c, hm⟩ := hp'
      obtain ⟨hs, _, h2⟩ := ho _ hm
      obtain ⟨p1, _, p3, _⟩ := C226_counts_partial h ho s t hs ht h2
      have hf := (p1 hl).2.2 hp
      unfold getSrcTrg at hf
      rw [retrieve_ok _ hl h2] at hf
      cases hv : SMap.get (run h) (toLex (t, s)) with
      | none => rw [hv] at hf; cases hf
      | some v =>
        refine ⟨(toLex (t, s), v), mem_get _ _ hv, ?_⟩
        have e1 : entOf t ((cnt (run h) [] t).getD 0) (toLex (t, s), v) = some (s, ((cnt (run h) [] t).getD 0, v.count)) := if_pos ⟨rfl, hs⟩
        rw [e1, ← (p1 hl).1, ← (p3 (by omega)).1]
        unfold getTrg getSrcTrg
        rw [found_eq _ [] t (by simp only [List.length_nil]; omega) (by simp), retrieve_ok _ hl h2, hv]
        rfl
  refine ⟨?_, hmem, ?_⟩
  · rw [entries_eq hi t ht]
    have hs := hi.sorted
    generalize (cnt (run h) [] t).getD 0 = tc
    generalize run h = db at hs
    induction db with
    | nil => exact List.Pairwise.nil
    | cons e r ih =>
      obtain ⟨h1, h2⟩ := List.pairwise_cons.1 hs
      rw [List.filterMap_cons]
      by_cases hc : (ofLex e.1).1 = t ∧ (ofLex e.1).2 ≠ []
      · have e1 : entOf t tc e = some ((ofLex e.1).2, (tc, e.2.count)) := if_pos hc
        rw [e1]
        show (((ofLex e.1).2, (tc, e.2.count)) :: r.filterMap (entOf t tc)).map Prod.fst |>.Pairwise (· < ·)
        rw [List.map_cons]
        refine List.pairwise_cons.2 ⟨?_, ih h2⟩
        intro x hx
        obtain ⟨y, hy, rfl⟩ := List.mem_map.1 hx
        obtain ⟨z, hz, hze⟩ := List.mem_filterMap.1 hy
        unfold entOf at hze
        by_cases hcz : (ofLex z.1).1 = t ∧ (ofLex z.1).2 ≠ []
        · rw [if_pos hcz] at hze
          injection hze with hze
          rw [← hze]
          have hlt := h1 z.1 (List.mem_map.2 ⟨z, hz, rfl⟩)
          rw [Prod.Lex.lt_iff] at hlt
          rcases hlt with hlt | ⟨_, hlt⟩
          · rw [hc.1, hcz.1] at hlt; exact absurd hlt (lt_irrefl _)
          · exact hlt
        · rw [if_neg hcz] at hze; cases hze
      · have e1 : entOf t tc e = none := if_neg hc
        rw [e1]
        exact ih h2
  · rw [getEntries_snd]
    constructor
    · intro hb
      cases hl : (getEntries (run h) t).1 with
      | nil => rw [hl] at hb; cases hb
      | cons e r =>
        have := (hmem e.1 e.2.1 e.2.2).1 (by rw [hl]; exact List.mem_cons_self)
        exact ⟨e.1, this.1, this.2.1⟩
    · rintro ⟨s, hp, hl⟩
      have := (hmem s _ _).2 ⟨hp, hl, rfl, rfl⟩
      cases hL : (getEntries (run h) t).1 with
      | nil => rw [hL] at this; cases this
      | cons e r => rfl

/-- Empty phrases must not be added: the count of the target phrase is doubled, and the count of the empty pair, which is the fast search flag, is set. -/
theorem C226_empty_source : getTrg (run [.incr [] [6] 3]) [6] = (6, true) ∧ flag (run [.incr [] [6] 3]) = true := by decide +kernel

example : (∀ o ∈ [Op.incr [5] [6] 3, .enable, .incr [5, 7] [6] 2, .incr [5] [6] 1], OpOk o) ∧
    getEntries (run [Op.incr [5] [6] 3, .enable, .incr [5, 7] [6] 2, .incr [5] [6] 1]) [6] = ([([5], (6, 4)), ([5, 7], (6, 2))], true) := by
  refine ⟨by simp [OpOk], by decide +kernel⟩

/-! ### C227 -/

theorem added_pos (p : Phrase → Phrase → Bool) (h : List Op) (hp : ∀ s t c, Op.incr s t c ∈ h → 0 < c) : added p h = [] ∨ 0 < (added p h).sum := by
  have hall : ∀ x ∈ added p h, 0 < x := by
    intro x hx
    obtain ⟨o, ho, he⟩ := List.mem_filterMap.1 hx
    cases o with
    | incr s t c =>
      by_cases hq : p s t = true
      · simp [hq] at he; subst he; exact hp s t _ ho
      · simp [hq] at he
    | enable => cases he
  cases hA : added p h with
  | nil => exact .inl rfl
  | cons a l =>
    refine .inr ?_
    rw [hA] at hall
    have hnn : 0 ≤ l.sum := by
      have : ∀ x ∈ l, 0 < x := fun x hx => hall x (List.mem_cons_of_mem _ hx)
      clear hA hall
      induction l with
      | nil => exact Rat.le_refl
      | cons b l ih =>
        rw [List.sum_cons]
        have h1 := this b List.mem_cons_self
        have h2 := ih (fun x hx => this x (List.mem_cons_of_mem _ hx))
        grind
    have := hall a List.mem_cons_self
    rw [List.sum_cons]
    grind

/-- **C227 (probabilities, what holds).** With positive counts, the probabilities are the quotients of the sums of the counts added, or the
smoothing constant for a pair that was not added or has more than 20 words; this holds whether or not fast search is enabled, so that enabling it (at any
point) changes no probability of a pair of nonempty phrases. -/
theorem C227_probs_partial (h : List Op) (ho : ∀ o ∈ h, OpOk o) (hp : ∀ s t c, Op.incr s t c ∈ h → 0 < c) (s t : Phrase) (hs : s ≠ []) (ht : t ≠ []) (h2 : 2 ∉ s) :
    (HasPair h s t ∧ s.length + t.length ≤ 20 →
      pTrgGivenSrc (run h) s t = some (sumPair h s t / sumSrc h s) ∧ pSrcGivenTrg (run h) s t = some (sumPair h s t / sumTrg h t) ∧ 0 < sumPair h s t ∧
      0 < sumSrc h s ∧ 0 < sumTrg h t) ∧
    (¬ (HasPair h s t ∧ s.length + t.length ≤ 20) →
      pTrgGivenSrc (run h) s t = some (1 / 10000000000) ∧ pSrcGivenTrg (run h) s t = some (1 / 10000000000)) := by
  have hi := inv_run h ho
  obtain ⟨p1, p2, p3, p4, _⟩ := C226_counts_partial h ho s t hs ht h2
  refine ⟨?_, ?_⟩
  · rintro ⟨hpair, hl⟩
    obtain ⟨q1, q1'⟩ := p1 hl
    obtain ⟨q2, _⟩ := p2 (by omega)
    obtain ⟨q3, _⟩ := p3 (by omega)
    have pos : ∀ p : Phrase → Phrase → Bool, p s t = true → 0 < (added p h).sum := by
      intro p hpp
      rcases added_pos p h hp with he | he
      · exfalso
        obtain ⟨c, hm⟩ := hpair
        have : c ∈ ([] : List Rat) := by rw [← he]; exact List.mem_filterMap.2 ⟨_, hm, by simp [hpp]⟩
        cases this
      · exact he
    have z1 : 0 < sumPair h s t := pos _ (by simp)
    have z2 : 0 < sumSrc h s := pos _ (by simp)
    have z3 : 0 < sumTrg h t := pos _ (by simp)
    have hd : ∀ a b : Rat, 0 < b → fdiv a b = some (a / b) := by
      intro a b hb
      exact if_neg (fun c => by rw [c] at hb; exact absurd hb (by decide))
    refine ⟨?_, ?_, z1, z2, z3⟩
    · unfold pTrgGivenSrc
      by_cases hf : flag (run h) = true
      · rw [if_pos hf]
        have hfound := q1'.2 hpair
        unfold getSrcTrg at hfound q1
        rw [retrieve_ok _ hl h2] at hfound q1 ⊢
        cases hv : SMap.get (run h) (toLex (t, s)) with
        | none => rw [hv] at hfound; cases hfound
        | some v =>
          have haux := hi.fast hf s t v hs ht hv
          rw [hv] at q1
          show fdiv v.count v.aux = _
          have e1 : v.count = sumPair h s t := q1
          have e2 : v.aux = sumSrc h s := by
            rw [← q2]
            unfold getSrc
            rw [found_eq _ s [] (by simp only [List.length_nil]; omega) h2, haux]
            rfl
          rw [e1, e2, hd _ _ z2]
      · rw [if_neg hf, q1, q2, if_pos z1, if_pos z2, hd _ _ z2]
    · unfold pSrcGivenTrg
      rw [q1, q3, if_pos z1, if_pos z3, hd _ _ z3]
  · intro hn
    have hz : getSrcTrg (run h) s t = (0, false) := by
      by_cases hl : s.length + t.length ≤ 20
      · have hnp : ¬ HasPair h s t := fun c => hn ⟨c, hl⟩
        have hb : (getSrcTrg (run h) s t).2 = false := by
          cases hb : (getSrcTrg (run h) s t).2 with
          | false => rfl
          | true => exact absurd ((p1 hl).2.1 hb) hnp
        unfold getSrcTrg at hb ⊢
        cases hr : retrieve (run h) s t with
        | none => rfl
        | some v => rw [hr] at hb; cases hb
      · exact p4 (by omega)
    have hr : retrieve (run h) s t = none := by
      unfold getSrcTrg at hz
      cases hr : retrieve (run h) s t with
      | none => rfl
      | some v => rw [hr] at hz; exact absurd (congrArg Prod.snd hz) (by simp [found])
    refine ⟨?_, ?_⟩
    · unfold pTrgGivenSrc
      by_cases hf : flag (run h) = true
      · rw [if_pos hf, hr]; rfl
      · rw [if_neg hf, hz, if_neg (by simp)]; rfl
    · unfold pSrcGivenTrg
      rw [hz, if_neg (by simp)]; rfl

/-- **C227 (enabling).** Fast search is enabled by `enableFastSearch` and disabled by every addition; it changes no count. -/
theorem C227_flag (h : List Op) (ho : ∀ o ∈ h, OpOk o) :
    flag (run (h ++ [.enable])) = true ∧ (∀ s t c, OpOk (.incr s t c) → flag (run (h ++ [.incr s t c])) = false) ∧
    (∀ s t, s ≠ [] → t ≠ [] → 2 ∉ s → getSrcTrg (run (h ++ [.enable])) s t = getSrcTrg (run h) s t ∧ getSrc (run (h ++ [.enable])) s = getSrc (run h) s ∧
      getTrg (run (h ++ [.enable])) t = getTrg (run h) t) := by
  have hi := inv_run h ho
  have hrun : ∀ o, run (h ++ [o]) = step (run h) o := by intro o; unfold run; rw [List.foldl_append]; rfl
  refine ⟨?_, ?_, ?_⟩
  · rw [hrun]
    show flag (enable (run h)) = true
    unfold enable
    by_cases hf : flag (run h) = true
    · rw [if_pos hf]; exact hf
    · rw [if_neg hf, flag_eq, setFlag_eq, cnt_ins (by unfold SMap.Sorted; rw [keys_map _ _ (refresh_fst _)]; exact hi.sorted), if_pos ⟨rfl, rfl⟩]
      decide +kernel
  · intro s t c hok
    rw [hrun, flag_eq]
    show decide ((cnt (incrCounts (run h) s t c) [] []).getD 0 > 0) = false
    obtain ⟨hs, ht, h2⟩ := hok
    have s0 : SMap.Sorted (setFlag (run h) 0) := by rw [setFlag_eq]; exact SMap.sorted_ins hi.sorted _ _
    have s1 := sorted_incr s0 s t c h2
    have s2 := sorted_incr s1 s [] c h2
    unfold incrCounts
    rw [cnt_incr s2 [] t c (by simp) [] [] (by simp), if_neg (by simp [ht.symm]), cnt_incr s1 s [] c h2 [] [] (by simp), if_neg (by simp [hs.symm]),
      cnt_incr s0 s t c h2 [] [] (by simp), if_neg (by simp [hs.symm]), setFlag_eq, cnt_ins hi.sorted, if_pos ⟨rfl, rfl⟩]
    decide +kernel
  · intro s t hs ht h2
    have hi' := inv_run (h ++ [.enable]) (by intro o hm; rcases List.mem_append.1 hm with hm | hm; exact ho o hm; rw [List.mem_singleton.1 hm]; trivial)
    have key : ∀ s t, (s ≠ [] ∨ t ≠ []) → 2 ∉ s → found (retrieve (run (h ++ [.enable])) s t) = found (retrieve (run h) s t) := by
      intro s t hne h2
      by_cases hl : s.length + t.length ≤ 20
      · rw [found_eq _ s t hl h2, found_eq _ s t hl h2, hi.count s t h2 hl hne, hi'.count s t h2 hl hne, total_enable]
      · rw [retrieve_long _ hl, retrieve_long _ hl]
    exact ⟨key s t (.inl hs) h2, key s [] (.inl hs) h2, key [] t (.inr ht) (by simp)⟩

/-- False of the code with a count 0: the probability becomes 0/0. -/
theorem C227_counterexample : ¬ C227_full := by
  intro h
  have := h [.incr [5] [6] 0] (by simp [OpOk]) (by intro s t c hm; simp at hm; rw [hm.2.2]; exact Rat.le_refl) [5] [6] (by simp) (by simp)
  exact absurd this (by decide +kernel)

/-- With positive counts, for the empty target phrase: the quotient is 1 before, and a division by zero after. A pair with count 0 whose source phrase
has other pairs has probability 0 after. -/
theorem C227_counterexamples : pTrgGivenSrc (run [.incr [5] [6] 3]) [5] [] = some 1 ∧ pTrgGivenSrc (run [.incr [5] [6] 3, .enable]) [5] [] = none ∧
    pTrgGivenSrc (run [.incr [5] [6] 0, .incr [5] [7] 1]) [5] [6] = some (1 / 10000000000) ∧
    pTrgGivenSrc (run [.incr [5] [6] 0, .incr [5] [7] 1, .enable]) [5] [6] = some 0 := by decide +kernel

example : pTrgGivenSrc (run [.incr [5] [6] 3, .incr [5] [7] 1, .enable]) [5] [6] = some (3 / 4) ∧
    pTrgGivenSrc (run [.incr [5] [6] 3, .incr [5] [7] 1, .enable, .incr [5] [7] 1]) [5] [6] = some (3 / 5) := by decide +kernel

/-! ### C228 -/

/-- The additions of the entries of a table. -/
def opsOf (num : Str → Rat) (es : List (List Nat × List Nat × Str)) : List Op := es.map fun e => .incr e.1 e.2.1 (num e.2.2)

/-- The full property: the counts written by the tool depend on the table only. -/
def C228_full : Prop := ∀ (num : Str → Rat) (old : Option Db) (ls : List Str) (es : List (List Nat × List Nat × Str)), (∀ l ∈ ls, ∀ c ∈ l, c ≠ '\n' ∧ c ≠ '\x00') →
  LdbStore.IdEntries ls es → (∀ e ∈ es, OpOk (.incr e.1 e.2.1 (num e.2.2)) ∧ (∀ w ∈ e.1, w < 2 ^ 31) ∧ ∀ w ∈ e.2.1, w < 2 ^ 31) →
  (old = none ∨ ∃ h, (∀ o ∈ h, OpOk o) ∧ old = some (run h)) →
  ∃ db, tool num old (ls.flatMap fun l => l ++ ['\n']) = some db ∧ ∀ s t, s ≠ [] → t ≠ [] → 2 ∉ s → s.length + t.length ≤ 20 →
    (getSrcTrg db s t).1 = sumPair (opsOf num es) s t

theorem init_run (h : List Op) (ho : ∀ o ∈ h, OpOk o) : init (some (run h)) = run h := by
  unfold init
  have hf := (inv_run h ho).flagDef
  unfold cnt at hf
  rw [if_pos]
  · rfl
  · rw [retrieve_ok _ (by simp) (by simp)]
    show (SMap.get (run h) (toLex ([], []))).isSome
    cases hg : SMap.get (run h) (toLex ([], [])) with
    | none => rw [hg] at hf; cases hf
    | some v => rfl

/-- **C228 (the tool).** On a database written by earlier calls `h` (`[]`: no database) the tool adds the entries of the table in order, skips
other lines, and enables fast search. -/
theorem C228_tool (num : Str → Rat) (h : List Op) (ho : ∀ o ∈ h, OpOk o) (old : Option Db) (hold : old = some (run h) ∨ old = none ∧ h = []) (ls : List Str)
    (es : List (List Nat × List Nat × Str)) (hl : ∀ l ∈ ls, ∀ c ∈ l, c ≠ '\n' ∧ c ≠ '\x00') (he : LdbStore.IdEntries ls es)
    (hw : ∀ e ∈ es, (∀ w ∈ e.1, w < 2 ^ 31) ∧ ∀ w ∈ e.2.1, w < 2 ^ 31) :
    tool num old (ls.flatMap fun l => l ++ ['\n']) = some (run (h ++ opsOf num es ++ [.enable])) := by
  have hinit : init old = run h := by
    rcases hold with rfl | ⟨rfl, rfl⟩
    · exact init_run h ho
    · rfl
  unfold tool
  rw [Desc.linesOf_text ls hl, LdbStore.C225_lines num incrCounts ls es he hw, hinit, Option.map_some]
  congr 1
  unfold run opsOf
  rw [List.foldl_append, List.foldl_append, List.foldl_map]
  rfl

/-- **C228, what holds**: with no database at the output prefix, the counts are the sums over the entries of the table, the probabilities are their quotients, and fast search is
enabled. -/
theorem C228_new_partial (num : Str → Rat) (ls : List Str) (es : List (List Nat × List Nat × Str)) (hl : ∀ l ∈ ls, ∀ c ∈ l, c ≠ '\n' ∧ c ≠ '\x00')
    (he : LdbStore.IdEntries ls es) (ho : ∀ e ∈ es, OpOk (.incr e.1 e.2.1 (num e.2.2)) ∧ (∀ w ∈ e.1, w < 2 ^ 31) ∧ ∀ w ∈ e.2.1, w < 2 ^ 31) :
    ∃ db, tool num none (ls.flatMap fun l => l ++ ['\n']) = some db ∧ flag db = true ∧ ∀ s t, s ≠ [] → t ≠ [] → 2 ∉ s → s.length + t.length ≤ 20 →
      (getSrcTrg db s t).1 = LdbStore.sumPair num es s t ∧ (getSrc db s).1 = LdbStore.sumSrc num es s ∧ (getTrg db t).1 = LdbStore.sumTrg num es t := by
  have hok : ∀ o ∈ opsOf num es, OpOk o := by
    intro o hm
    obtain ⟨e, hem, rfl⟩ := List.mem_map.1 hm
    exact (ho e hem).1
  have hok2 : ∀ o ∈ opsOf num es ++ [.enable], OpOk o := by
    intro o hm
    rcases List.mem_append.1 hm with hm | hm
    · exact hok o hm
    · rw [List.mem_singleton.1 hm]; trivial
  have ht := C228_tool num [] (by simp) none (.inr ⟨rfl, rfl⟩) ls es hl he (fun e hm => (ho e hm).2)
  rw [List.nil_append] at ht
  refine ⟨_, ht, (C227_flag _ hok).1, ?_⟩
  intro s t hs htn h2 hlen
  obtain ⟨p1, p2, p3, p4⟩ := C226_counts_partial _ hok2 s t hs htn h2
  rw [(p1 hlen).1, (p2 (by omega)).1, (p3 (by omega)).1]
  have hadd : ∀ p : Phrase → Phrase → Bool, added p (opsOf num es ++ [.enable]) = (es.filter fun e => p e.1 e.2.1).map fun e => num e.2.2 := by
    intro p
    rw [added_enable]
    unfold added opsOf
    rw [List.filterMap_map]
    clear ht hok hok2 he ho p1 p2 p3 p4
    induction es with
    | nil => rfl
    | cons e es ih =>
      rw [List.filterMap_cons, List.filter_cons, ih]
      by_cases hp : p e.1 e.2.1 = true
      · simp [hp]
      · simp [hp]
  unfold sumPair sumSrc sumTrg LdbStore.sumPair LdbStore.sumSrc LdbStore.sumTrg
  rw [hadd, hadd, hadd]
  exact ⟨rfl, rfl, rfl⟩

/-- False of the code: the tool adds to a database that exists; running it twice doubles all counts. -/
theorem C228_counterexample : ¬ C228_full := by
  intro h
  have hent : LdbStore.IdEntries [LdbStore.sampleLine] [([5], [6], "0.4".toList)] := .entry LdbStore.sample_fields .nil
  obtain ⟨db, h1, h2⟩ := h (fun _ => 1) (some (run [.incr [5] [6] 1, .enable])) [LdbStore.sampleLine] [([5], [6], "0.4".toList)] (by decide) hent
    (by simp [OpOk]) (.inr ⟨_, by simp [OpOk], rfl⟩)
  rw [C228_tool (fun _ => 1) [.incr [5] [6] 1, .enable] (by simp [OpOk]) _ (.inl rfl) _ _ (by decide) hent (by decide)] at h1
  injection h1 with h1
  have := h2 [5] [6] (by simp) (by simp) (by simp) (by decide)
  rw [← h1] at this
  exact absurd this (by decide +kernel)

end Thot.Bdb
