import Verif.LdbLex.Model

/-!
C222: a LevelDB lexical table reflects the history of its changes. C223: printing and loading it.
-/
namespace Thot.LdbLex
open Thot.Awk (Str)
open Thot.LevelDb (Bytes vectorToString stringToVector encWord decWord mapOpt Fits)

/-! ### Specification -/

/-- The numerator that a change sets for a pair, if any. -/
def numOf (s t : Nat) : Op → Option Nat
  | .num s' t' x => if s' = s ∧ t' = t then some x else none
  | .both s' t' n _ => if s' = s ∧ t' = t then some n else none
  | .den _ _ => none

/-- The denominator that a change sets for a word, if any. -/
def denOf (s : Nat) : Op → Option Nat
  | .num _ _ _ => none
  | .both s' _ _ d => if s' = s then some d else none
  | .den s' d => if s' = s then some d else none

/-- The last numerator and the last denominator set by a history. -/
def lastNum (h : List Op) (s t : Nat) : Option Nat := (h.filterMap (numOf s t)).getLast?
def lastDen (h : List Op) (s : Nat) : Option Nat := (h.filterMap (denOf s)).getLast?

/-- The arguments are 32-bit words. -/
def Op.Ok : Op → Prop
  | .num s t x => s < 2 ^ 32 ∧ t < 2 ^ 32 ∧ x < 2 ^ 32
  | .den s x => s < 2 ^ 32 ∧ x < 2 ^ 32
  | .both s t n d => s < 2 ^ 32 ∧ t < 2 ^ 32 ∧ n < 2 ^ 32 ∧ d < 2 ^ 32

/-! ### Encodings -/

theorem fits_of {v : List Nat} (h : ∀ w ∈ v, w < 2 ^ 32) : Fits 5 v := by
  intro w hw
  have := h w hw
  omega

theorem enc_inj {u v : List Nat} (hu : ∀ w ∈ u, w < 2 ^ 32) (hv : ∀ w ∈ v, w < 2 ^ 32) : enc u = enc v ↔ u = v :=
  ⟨LevelDb.C28_injective 5 (by omega) u v (fits_of hu) (fits_of hv), fun h => by rw [h]⟩

theorem dec_enc {v : List Nat} (hv : ∀ w ∈ v, w < 2 ^ 32) : stringToVector 5 (enc v) = some v :=
  LevelDb.C28_decode 5 (by omega) v (fits_of hv)

theorem enc_lt {u v : List Nat} (hu : ∀ w ∈ u, w < 2 ^ 32) (hv : ∀ w ∈ v, w < 2 ^ 32) : enc u < enc v ↔ u < v :=
  LevelDb.C28_order 5 (by omega) u v (fits_of hu) (fits_of hv)

theorem float_rt {x : Nat} (h : x < 2 ^ 32) : stringToFloat (floatToString x) = some x := by
  unfold stringToFloat floatToString
  have := LevelDb.decWord_encWord 5 x [] (by omega) h
  rw [List.append_nil] at this
  rw [this]; rfl

/-! ### Invariant -/

/-- The value stored for a sequence of words. -/
def val (h : List Op) : List Nat → Option Nat
  | [s] => lastDen h s
  | [t, s] => lastNum h s t
  | _ => none

theorem filterMap_snoc {α β : Type} (f : α → Option β) (h : List α) (o : α) :
    ((h ++ [o]).filterMap f).getLast? = (f o).or ((h.filterMap f).getLast?) := by
  rw [List.filterMap_append]
  cases hf : f o with
  | none => simp [hf]
  | some x => simp [hf]

structure Inv (db : Db) (h : List Op) : Prop where
  sorted : SMap.Sorted db
  get : ∀ v, (∀ w ∈ v, w < 2 ^ 32) → SMap.get db (enc v) = (val h v).map floatToString
  keys : ∀ k ∈ SMap.keys db, (∃ s, s < 2 ^ 32 ∧ k = enc [s]) ∨ ∃ s t, s < 2 ^ 32 ∧ t < 2 ^ 32 ∧ k = enc [t, s]

theorem lastNum_snoc (h : List Op) (o : Op) (s t : Nat) : lastNum (h ++ [o]) s t = (numOf s t o).or (lastNum h s t) := filterMap_snoc _ _ _
theorem lastDen_snoc (h : List Op) (o : Op) (s : Nat) : lastDen (h ++ [o]) s = (denOf s o).or (lastDen h s) := filterMap_snoc _ _ _

/-- A store of one value. -/
theorem inv_store {db : Db} {h h' : List Op} (hi : Inv db h) (v : List Nat) (x : Nat) (hv : ∀ w ∈ v, w < 2 ^ 32)
    (hl : (∃ s, v = [s]) ∨ ∃ s t, v = [t, s]) (hval : ∀ u, val h' u = if u = v then some x else val h u) : Inv (store db v x) h' := by
  refine ⟨SMap.sorted_ins hi.sorted _ _, ?_, ?_⟩
  · intro u hu
    unfold store
    rw [SMap.get_ins hi.sorted, hval]
    by_cases he : u = v
    · rw [if_pos he, if_pos (by rw [he])]; rfl
    · rw [if_neg he, if_neg (fun c => he ((enc_inj hu hv).1 c)), hi.get u hu]
  · intro k hk
    rcases (SMap.mem_keys_ins _ _ _ _).1 hk with rfl | hk
    · rcases hl with ⟨s, rfl⟩ | ⟨s, t, rfl⟩
      · exact .inl ⟨s, hv s (by simp), rfl⟩
      · exact .inr ⟨s, t, hv s (by simp), hv t (by simp), rfl⟩
    · exact hi.keys k hk

theorem val_num (h : List Op) (s t x : Nat) (u : List Nat) : val (h ++ [.num s t x]) u = if u = [t, s] then some x else val h u := by
  match u with
  | [] => rfl
  | [a] => rw [if_neg (by simp)]; exact (lastDen_snoc h _ a).trans rfl
  | [b, a] =>
    show lastNum _ a b = _
    rw [lastNum_snoc]
    show (if s = a ∧ t = b then some x else none).or (lastNum h a b) = if [b, a] = [t, s] then some x else lastNum h a b
    by_cases hc : s = a ∧ t = b
    · rw [if_pos hc, if_pos (by rw [hc.1, hc.2])]; rfl
    · rw [if_neg hc, if_neg (by intro e; simp at e; exact hc ⟨e.2.symm, e.1.symm⟩)]; rfl
  | a :: b :: c :: r => rw [if_neg (by simp)]; rfl

theorem val_den (h : List Op) (s x : Nat) (u : List Nat) : val (h ++ [.den s x]) u = if u = [s] then some x else val h u := by
  match u with
  | [] => rfl
  | [a] =>
    show lastDen _ a = _
    rw [lastDen_snoc]
    show (if s = a then some x else none).or (lastDen h a) = if [a] = [s] then some x else lastDen h a
    by_cases hc : s = a
    · rw [if_pos hc, if_pos (by rw [hc])]; rfl
    · rw [if_neg hc, if_neg (by intro e; simp at e; exact hc e.symm)]; rfl
  | [b, a] => rw [if_neg (by simp)]; exact (lastNum_snoc h _ a b).trans rfl
  | a :: b :: c :: r => rw [if_neg (by simp)]; rfl

theorem val_both (h : List Op) (s t n d : Nat) (u : List Nat) :
    val (h ++ [.both s t n d]) u = val ((h ++ [.den s d]) ++ [.num s t n]) u := by
  rw [val_num, val_den]
  match u with
  | [] => rfl
  | [a] =>
    rw [if_neg (by simp)]
    show lastDen _ a = _
    rw [lastDen_snoc]
    show (if s = a then some d else none).or (lastDen h a) = if [a] = [s] then some d else lastDen h a
    by_cases hc : s = a
    · rw [if_pos hc, if_pos (by rw [hc])]; rfl
    · rw [if_neg hc, if_neg (by intro e; simp at e; exact hc e.symm)]; rfl
  | [b, a] =>
    rw [if_neg (show ¬ [b, a] = [s] by simp)]
    show lastNum _ a b = _
    rw [lastNum_snoc]
    show (if s = a ∧ t = b then some n else none).or (lastNum h a b) = if [b, a] = [t, s] then some n else lastNum h a b
    by_cases hc : s = a ∧ t = b
    · rw [if_pos hc, if_pos (by rw [hc.1, hc.2])]; rfl
    · rw [if_neg hc, if_neg (by intro e; simp at e; exact hc ⟨e.2.symm, e.1.symm⟩)]; rfl
  | a :: b :: c :: r => rw [if_neg (by simp), if_neg (by simp)]; rfl

theorem inv_step {db : Db} {h : List Op} (hi : Inv db h) (o : Op) (ho : o.Ok) : Inv (step db o) (h ++ [o]) := by
  cases o with
  | num s t x =>
    exact inv_store hi [t, s] x (by simp; exact ⟨ho.2.1, ho.1⟩) (.inr ⟨s, t, rfl⟩) (val_num h s t x)
  | den s x => exact inv_store hi [s] x (by simp; exact ho.1) (.inl ⟨s, rfl⟩) (val_den h s x)
  | both s t n d =>
    have h1 : Inv (setDenom db s d) (h ++ [.den s d]) := inv_store hi [s] d (by simp; exact ho.1) (.inl ⟨s, rfl⟩) (val_den h s d)
    refine inv_store h1 [t, s] n (by simp; exact ⟨ho.2.1, ho.1⟩) (.inr ⟨s, t, rfl⟩) ?_
    intro u
    rw [val_both, val_num]

theorem inv_fold (ops : List Op) : ∀ (db : Db) (h : List Op), Inv db h → (∀ o ∈ ops, o.Ok) → Inv (ops.foldl step db) (h ++ ops) := by
  induction ops with
  | nil => intro db h hi _; rw [List.append_nil]; exact hi
  | cons o ops ih =>
    intro db h hi ho
    rw [List.foldl_cons, show h ++ o :: ops = (h ++ [o]) ++ ops by simp]
    exact ih _ _ (inv_step hi o (ho o List.mem_cons_self)) (fun x hx => ho x (List.mem_cons_of_mem _ hx))

theorem inv_nil : Inv [] [] := by
  refine ⟨SMap.sorted_nil, ?_, ?_⟩
  · intro v _
    match v with
    | [] => rfl
    | [a] => rfl
    | [a, b] => rfl
    | a :: b :: c :: r => rfl
  · intro k hk; cases hk

theorem inv_run (h : List Op) (ho : ∀ o ∈ h, o.Ok) : Inv (run h) h := by
  have := inv_fold h [] [] inv_nil ho
  rwa [List.nil_append] at this

theorem mem_last {α β : Type} (f : α → Option β) (h : List α) (x : β) (hx : (h.filterMap f).getLast? = some x) : ∃ o ∈ h, f o = some x := by
  obtain ⟨o, ho, he⟩ := List.mem_filterMap.1 (List.mem_of_getLast? hx)
  exact ⟨o, ho, he⟩

theorem last_ok {h : List Op} (ho : ∀ o ∈ h, o.Ok) : (∀ s t x, lastNum h s t = some x → x < 2 ^ 32) ∧ (∀ s x, lastDen h s = some x → x < 2 ^ 32) := by
  refine ⟨?_, ?_⟩
  · intro s t x hx
    obtain ⟨o, hm, he⟩ := mem_last _ _ _ hx
    have hk := ho o hm
    cases o with
    | num a b y => simp only [numOf] at he; split at he <;> cases he; exact hk.2.2
    | den a y => cases he
    | both a b y z => simp only [numOf] at he; split at he <;> cases he; exact hk.2.2.1
  · intro s x hx
    obtain ⟨o, hm, he⟩ := mem_last _ _ _ hx
    have hk := ho o hm
    cases o with
    | num a b y => cases he
    | den a y => simp only [denOf] at he; split at he <;> cases he; exact hk.2
    | both a b y z => simp only [denOf] at he; split at he <;> cases he; exact hk.2.2.2

theorem retrieve_val {db : Db} {h : List Op} (hi : Inv db h) (ho : ∀ o ∈ h, o.Ok) (v : List Nat) (hv : ∀ w ∈ v, w < 2 ^ 32) :
    retrieve db v = some ((val h v).getD 0, (val h v).isSome) := by
  unfold retrieve
  rw [hi.get v hv]
  cases hx : val h v with
  | none => rfl
  | some x =>
    have hlt : x < 2 ^ 32 := by
      match v, hx with
      | [s], hx => exact (last_ok ho).2 s x hx
      | [t, s], hx => exact (last_ok ho).1 s t x hx
    show (stringToFloat (floatToString x)).map _ = _
    rw [float_rt hlt]; rfl

/-- **C222 (values).** After any history, numerators and denominators are the last ones that were set: (0, not found) if none was. -/
theorem C222_get (h : List Op) (ho : ∀ o ∈ h, o.Ok) (s t : Nat) (hs : s < 2 ^ 32) (ht : t < 2 ^ 32) :
    getNumer (run h) s t = some ((lastNum h s t).getD 0, (lastNum h s t).isSome) ∧
    getDenom (run h) s = some ((lastDen h s).getD 0, (lastDen h s).isSome) := by
  refine ⟨?_, ?_⟩
  · exact retrieve_val (inv_run h ho) ho [t, s] (by simp; exact ⟨ht, hs⟩)
  · exact retrieve_val (inv_run h ho) ho [s] (by simp; exact hs)

/-! ### Translations of a target word -/

theorem mapOpt_some {α β : Type} (f : α → Option β) (g : α → β) (l : List α) (h : ∀ a ∈ l, f a = some (g a)) : mapOpt f l = some (l.map g) := by
  induction l with
  | nil => rfl
  | cons a l ih =>
    rw [mapOpt, h a List.mem_cons_self, ih (fun x hx => h x (List.mem_cons_of_mem _ hx))]
    rfl

theorem cons_lt_single (a b : Nat) (r : List Nat) : a :: r < [b] ↔ a < b := by
  rw [List.cons_lt_cons_iff]
  constructor
  · rintro (h | ⟨_, h⟩)
    · exact h
    · exact absurd h (List.not_lt_nil r)
  · exact fun h => .inl h

/-- The sequence of words of a key. -/
def decK (k : Bytes) : List Nat := (stringToVector 5 k).getD []

theorem decK_enc {v : List Nat} (hv : ∀ w ∈ v, w < 2 ^ 32) : decK (enc v) = v := by
  unfold decK; rw [dec_enc hv]; rfl

theorem mem_keys_pair {db : Db} {h : List Op} (hi : Inv db h) (s t : Nat) (hs : s < 2 ^ 32) (ht : t < 2 ^ 32) :
    enc [t, s] ∈ SMap.keys db ↔ (lastNum h s t).isSome := by
  rw [← SMap.get_isSome_iff, hi.get _ (by simp; exact ⟨ht, hs⟩)]
  show (Option.map floatToString (lastNum h s t)).isSome ↔ _
  cases lastNum h s t <;> simp

theorem trans_list {db : Db} {h : List Op} (hi : Inv db h) (t : Nat) (ht : t + 1 < 2 ^ 32) :
    ∃ l, getTrans db t = some (l, !l.isEmpty) ∧ ∀ s, s ∈ l ↔ (lastNum h s t).isSome ∧ s < 2 ^ 32 := by
  have hdec : ∀ k ∈ visited db t, stringToVector 5 k = some (decK k) := by
    intro k hk
    rcases hi.keys k (List.mem_filter.1 hk).1 with ⟨s, hs, rfl⟩ | ⟨s, t', hs, ht', rfl⟩
    · rw [decK_enc (by simp; exact hs), dec_enc (by simp; exact hs)]
    · rw [decK_enc (by simp; exact ⟨ht', hs⟩), dec_enc (by simp; exact ⟨ht', hs⟩)]
  refine ⟨((visited db t).map decK).filterMap (fun v => if v.length > 1 then v.getLast? else none), ?_, ?_⟩
  · unfold getTrans
    rw [mapOpt_some _ decK _ hdec]
    rfl
  · intro s
    rw [List.mem_filterMap]
    have hmod : (t + 1) % 2 ^ 32 = t + 1 := Nat.mod_eq_of_lt ht
    constructor
    · rintro ⟨v, hv, he⟩
      obtain ⟨k, hk, rfl⟩ := List.mem_map.1 hv
      obtain ⟨hk1, hk2⟩ := List.mem_filter.1 hk
      rcases hi.keys k hk1 with ⟨s', hs, rfl⟩ | ⟨s', t', hs, ht', rfl⟩
      · rw [decK_enc (by simp; exact hs)] at he; simp at he
      · have hb : ∀ w ∈ [t', s'], w < 2 ^ 32 := by simp; exact ⟨ht', hs⟩
        rw [decK_enc hb] at he
        simp at he
        subst he
        rw [hmod] at hk2
        simp only [Bool.and_eq_true, Bool.not_eq_true', decide_eq_false_iff_not, decide_eq_true_eq] at hk2
        rw [enc_lt hb (by simp; omega), enc_lt hb (by simp; omega), cons_lt_single, cons_lt_single] at hk2
        have : t' = t := by omega
        subst this
        exact ⟨(mem_keys_pair hi s' t' hs ht').1 hk1, hs⟩
    · rintro ⟨hsome, hs⟩
      have hb : ∀ w ∈ [t, s], w < 2 ^ 32 := by simp; omega
      refine ⟨[t, s], List.mem_map.2 ⟨enc [t, s], List.mem_filter.2 ⟨(mem_keys_pair hi s t hs (by omega)).2 hsome, ?_⟩, decK_enc hb⟩, by simp⟩
      rw [hmod]
      simp only [Bool.and_eq_true, Bool.not_eq_true', decide_eq_false_iff_not, decide_eq_true_eq]
      rw [enc_lt hb (by simp; omega), enc_lt hb (by simp; omega), cons_lt_single, cons_lt_single]
      omega

theorem last_some_iff (h : List Op) (s t : Nat) : (lastNum h s t).isSome ↔ ∃ o ∈ h, ∃ x, numOf s t o = some x := by
  constructor
  · intro hs
    obtain ⟨x, hx⟩ := Option.isSome_iff_exists.1 hs
    obtain ⟨o, ho, he⟩ := mem_last _ _ _ hx
    exact ⟨o, ho, x, he⟩
  · rintro ⟨o, ho, x, hx⟩
    cases hl : lastNum h s t with
    | some y => rfl
    | none =>
      have : h.filterMap (numOf s t) = [] := List.getLast?_eq_none_iff.1 hl
      have hm : x ∈ h.filterMap (numOf s t) := List.mem_filterMap.2 ⟨o, ho, hx⟩
      rw [this] at hm; cases hm

/-- The full property: the translations of every target word are the source words for which a numerator was set. -/
def C222_full : Prop := ∀ (h : List Op), (∀ o ∈ h, o.Ok) → ∀ t, t < 2 ^ 32 →
  ∃ l b, getTrans (run h) t = some (l, b) ∧ (∀ s, s ∈ l ↔ ∃ o ∈ h, ∃ x, numOf s t o = some x) ∧ (b = true ↔ l ≠ [])

/-- **C222, what holds**: all target words but 2^32-1. -/
theorem C222_translations_partial (h : List Op) (ho : ∀ o ∈ h, o.Ok) (t : Nat) (ht : t + 1 < 2 ^ 32) :
    ∃ l b, getTrans (run h) t = some (l, b) ∧ (∀ s, s ∈ l ↔ ∃ o ∈ h, ∃ x, numOf s t o = some x) ∧ (b = true ↔ l ≠ []) := by
  obtain ⟨l, hl, hm⟩ := trans_list (inv_run h ho) t ht
  refine ⟨l, _, hl, ?_, ?_⟩
  · intro s
    rw [hm, last_some_iff]
    constructor
    · exact fun hx => hx.1
    · rintro ⟨o, hoh, x, hx⟩
      refine ⟨⟨o, hoh, x, hx⟩, ?_⟩
      have hk := ho o hoh
      cases o with
      | num a b y => simp only [numOf] at hx; split at hx <;> cases hx; rename_i hc; rw [← hc.1]; exact hk.1
      | den a y => cases hx
      | both a b y z => simp only [numOf] at hx; split at hx <;> cases hx; rename_i hc; rw [← hc.1]; exact hk.1
  · cases l <;> simp

/-- False of the code for the last word index: `t+1` is 0. -/
theorem C222_counterexample : ¬ C222_full := by
  intro h
  obtain ⟨l, b, h1, h2, _⟩ := h [.num 3 (2 ^ 32 - 1) 7] (by simp [Op.Ok]) (2 ^ 32 - 1) (by decide)
  have he : getTrans (run [.num 3 (2 ^ 32 - 1) 7]) (2 ^ 32 - 1) = some ([], false) := by decide +kernel
  rw [he] at h1
  cases h1
  exact absurd ((h2 3).2 ⟨_, List.mem_singleton.2 rfl, 7, by decide⟩) (by simp)

example : (∀ o ∈ [Op.both 3 5 7 8, .den 3 9, .num 4 5 1], o.Ok) ∧ getTrans (run [Op.both 3 5 7 8, .den 3 9, .num 4 5 1]) 5 = some ([3, 4], true) ∧
    getDenom (run [Op.both 3 5 7 8, .den 3 9, .num 4 5 1]) 3 = some (9, true) := by
  refine ⟨by simp [Op.Ok], by decide +kernel, by decide +kernel⟩

/-! ### C223 -/

/-- Records of a binary file. -/
structure Rec where
  s : Nat
  t : Nat
  num : Nat
  den : Nat

def Rec.words (r : Rec) : List Nat := [r.s, r.t, r.num, r.den]
def Rec.op (r : Rec) : Op := .both r.s r.t r.num r.den

theorem readLoop_recs (rs : List Rec) : ∀ db, readLoop db (rs.flatMap Rec.words) = some ((rs.map Rec.op).foldl step db) := by
  induction rs with
  | nil => intro db; rfl
  | cons r rs ih => intro db; exact ih _

/-- **C223 (reading).** The table read from a binary file is that of the history that sets its records in order; an incomplete record is
undefined behaviour. -/
theorem C223_read (rs : List Rec) (extra : List Nat) (he : extra.length < 4) :
    readLoop [] (rs.flatMap Rec.words ++ extra) = if extra = [] then some (run (rs.map Rec.op)) else none := by
  have key : ∀ (rs : List Rec) (db : Db), readLoop db (rs.flatMap Rec.words ++ extra) = readLoop ((rs.map Rec.op).foldl step db) extra := by
    intro rs
    induction rs with
    | nil => intro db; rfl
    | cons r rs ih => intro db; exact ih _
  rw [key]
  match extra, he with
  | [], _ => rfl
  | [a], _ => rfl
  | [a, b], _ => rfl
  | [a, b, c], _ => rfl

/-- The record that `printBin` writes for an entry. -/
def recOf (h : List Op) (k : Bytes) : Option Rec :=
  match decK k with
  | [t, s] => (lastNum h s t).map fun n => ⟨s, t, n, (lastDen h s).getD 0⟩
  | _ => none

theorem get_of_mem {db : Db} (hs : SMap.Sorted db) (e : Bytes × Bytes) (he : e ∈ db) : SMap.get db e.1 = some e.2 := by
  induction db with
  | nil => cases he
  | cons a r ih =>
    obtain ⟨h1, h2⟩ := List.pairwise_cons.1 hs
    rw [SMap.get]
    rcases List.mem_cons.1 he with rfl | he
    · rw [if_pos rfl]
    · rw [if_neg, ih h2 he]
      exact ne_of_lt (h1 e.1 (List.mem_map.2 ⟨e, he, rfl⟩))

theorem printEntry_eq {db : Db} {h : List Op} (hi : Inv db h) (ho : ∀ o ∈ h, o.Ok) (e : Bytes × Bytes) (he : e ∈ db) :
    printEntry db e = some (((recOf h e.1).map Rec.words).getD []) := by
  have hg := get_of_mem hi.sorted e he
  have hk : e.1 ∈ SMap.keys db := List.mem_map.2 ⟨e, he, rfl⟩
  unfold printEntry recOf
  rcases hi.keys e.1 hk with ⟨s, hs, hek⟩ | ⟨s, t, hs, ht, hek⟩
  · rw [hek, decK_enc (by simp; exact hs), dec_enc (by simp; exact hs)]
    rfl
  · have hb : ∀ w ∈ [t, s], w < 2 ^ 32 := by simp; exact ⟨ht, hs⟩
    rw [hek] at hg
    rw [hek, decK_enc hb, dec_enc hb]
    rw [hi.get _ hb] at hg
    change Option.map floatToString (lastNum h s t) = _ at hg
    obtain ⟨n, hn, hne⟩ := Option.map_eq_some_iff.1 hg
    have hd : getDenom db s = some ((lastDen h s).getD 0, (lastDen h s).isSome) := retrieve_val hi ho [s] (by simp; exact hs)
    show (match stringToFloat e.2, getDenom db s with
      | some n, some d => some [s, t, n, d.1]
      | _, _ => none) = some ((Option.map Rec.words ((lastNum h s t).map fun n => ⟨s, t, n, (lastDen h s).getD 0⟩)).getD [])
    rw [← hne, float_rt ((last_ok ho).1 s t n hn), hd, hn]
    rfl

/-- The records printed, in the order of the keys. -/
def printed (db : Db) (h : List Op) : List Rec := (SMap.keys db).filterMap (recOf h)

theorem printBin_eq {db : Db} {h : List Op} (hi : Inv db h) (ho : ∀ o ∈ h, o.Ok) : printBin db = some ((printed db h).flatMap Rec.words) := by
  unfold printBin
  rw [mapOpt_some _ (fun e => ((recOf h e.1).map Rec.words).getD []) db (printEntry_eq hi ho)]
  show some (List.flatten _) = _
  congr 1
  unfold printed SMap.keys
  generalize db = l
  induction l with
  | nil => rfl
  | cons e l ih =>
    rw [List.map_cons, List.flatten_cons, ih, List.map_cons, List.filterMap_cons]
    cases recOf h e.1 <;> simp

theorem mem_printed {db : Db} {h : List Op} (hi : Inv db h) (r : Rec) : r ∈ printed db h ↔
    r.s < 2 ^ 32 ∧ r.t < 2 ^ 32 ∧ lastNum h r.s r.t = some r.num ∧ r.den = (lastDen h r.s).getD 0 := by
  unfold printed
  rw [List.mem_filterMap]
  constructor
  · rintro ⟨k, hk, he⟩
    rcases hi.keys k hk with ⟨s, hs, rfl⟩ | ⟨s, t, hs, ht, rfl⟩
    · unfold recOf at he
      rw [decK_enc (by simp; exact hs)] at he
      cases he
    · unfold recOf at he
      rw [decK_enc (by simp; exact ⟨ht, hs⟩)] at he
      obtain ⟨n, hn, rfl⟩ := Option.map_eq_some_iff.1 he
      exact ⟨hs, ht, hn, rfl⟩
  · rintro ⟨hs, ht, hn, hd⟩
    refine ⟨enc [r.t, r.s], (mem_keys_pair hi r.s r.t hs ht).2 (by rw [hn]; rfl), ?_⟩
    unfold recOf
    rw [decK_enc (by simp; exact ⟨ht, hs⟩)]
    show Option.map _ (lastNum h r.s r.t) = _
    rw [hn]
    show some (Rec.mk r.s r.t r.num ((lastDen h r.s).getD 0)) = some r
    rw [← hd]

theorem last_const {α β : Type} (f : α → Option β) (l : List α) (x : β) (hall : ∀ a ∈ l, ∀ y, f a = some y → y = x) :
    (l.filterMap f).getLast? = if ∃ a ∈ l, (f a).isSome then some x else none := by
  split
  · rename_i hex
    obtain ⟨a, ha, hs⟩ := hex
    obtain ⟨y, hy⟩ := Option.isSome_iff_exists.1 hs
    cases hl : (l.filterMap f).getLast? with
    | none =>
      have : l.filterMap f = [] := List.getLast?_eq_none_iff.1 hl
      have hm : y ∈ l.filterMap f := List.mem_filterMap.2 ⟨a, ha, hy⟩
      rw [this] at hm; cases hm
    | some z =>
      obtain ⟨b, hb, hz⟩ := mem_last _ _ _ hl
      rw [hall b hb z hz]
  · rename_i hex
    cases hl : (l.filterMap f).getLast? with
    | none => rfl
    | some z =>
      obtain ⟨b, hb, hz⟩ := mem_last _ _ _ hl
      exact absurd ⟨b, hb, by rw [hz]; rfl⟩ hex

theorem printed_ok {db : Db} {h : List Op} (hi : Inv db h) (ho : ∀ o ∈ h, o.Ok) : ∀ o ∈ (printed db h).map Rec.op, o.Ok := by
  intro o hm
  obtain ⟨r, hr, rfl⟩ := List.mem_map.1 hm
  obtain ⟨hs, ht, hn, hd⟩ := (mem_printed hi r).1 hr
  refine ⟨hs, ht, (last_ok ho).1 _ _ _ hn, ?_⟩
  rw [hd]
  cases hl : lastDen h r.s with
  | none => decide
  | some x => exact (last_ok ho).2 _ _ hl

theorem printed_num {db : Db} {h : List Op} (hi : Inv db h) (s t : Nat) (hs : s < 2 ^ 32) (ht : t < 2 ^ 32) :
    lastNum ((printed db h).map Rec.op) s t = lastNum h s t := by
  unfold lastNum
  cases hl : lastNum h s t with
  | some n =>
    rw [last_const _ _ n]
    · rw [if_pos]
      · exact hl.symm
      · refine ⟨Rec.op ⟨s, t, n, (lastDen h s).getD 0⟩, List.mem_map.2 ⟨_, (mem_printed hi _).2 ⟨hs, ht, hl, rfl⟩, rfl⟩, ?_⟩
        show (if s = s ∧ t = t then some n else none).isSome
        rw [if_pos ⟨rfl, rfl⟩]; rfl
    · intro a ha y hy
      obtain ⟨r, hr, rfl⟩ := List.mem_map.1 ha
      obtain ⟨_, _, hn, _⟩ := (mem_printed hi r).1 hr
      change (if r.s = s ∧ r.t = t then some r.num else none) = some y at hy
      split at hy
      · rename_i hc
        rw [hc.1, hc.2, hl] at hn
        cases hy; injection hn with hn; exact hn.symm
      · cases hy
  | none =>
    change _ = lastNum h s t
    rw [hl]
    cases hq : (((printed db h).map Rec.op).filterMap (numOf s t)).getLast? with
    | none => rfl
    | some x =>
      obtain ⟨o, hm, he⟩ := mem_last _ _ _ hq
      obtain ⟨r, hr, rfl⟩ := List.mem_map.1 hm
      obtain ⟨_, _, hn, _⟩ := (mem_printed hi r).1 hr
      change (if r.s = s ∧ r.t = t then some r.num else none) = some x at he
      split at he
      · rename_i hc
        rw [hc.1, hc.2, hl] at hn; cases hn
      · cases he

theorem printed_den {db : Db} {h : List Op} (hi : Inv db h) (s : Nat) (hs : s < 2 ^ 32) :
    (∀ t, t < 2 ^ 32 → (lastNum h s t).isSome → lastDen ((printed db h).map Rec.op) s = some ((lastDen h s).getD 0)) ∧
    ((∀ t, t < 2 ^ 32 → lastNum h s t = none) → lastDen ((printed db h).map Rec.op) s = none) := by
  have hc := last_const (denOf s) ((printed db h).map Rec.op) ((lastDen h s).getD 0) (by
    intro a ha y hy
    obtain ⟨r, hr, rfl⟩ := List.mem_map.1 ha
    obtain ⟨_, _, _, hd⟩ := (mem_printed hi r).1 hr
    change (if r.s = s then some r.den else none) = some y at hy
    split at hy
    · rename_i hc
      cases hy; rw [hd, hc]
    · cases hy)
  refine ⟨?_, ?_⟩
  · intro t ht hsome
    obtain ⟨n, hn⟩ := Option.isSome_iff_exists.1 hsome
    refine hc.trans (if_pos ⟨Rec.op ⟨s, t, n, (lastDen h s).getD 0⟩, List.mem_map.2 ⟨_, (mem_printed hi _).2 ⟨hs, ht, hn, rfl⟩, rfl⟩, ?_⟩)
    show (if s = s then some ((lastDen h s).getD 0) else none).isSome
    rw [if_pos rfl]; rfl
  · intro hall
    refine hc.trans (if_neg ?_)
    rintro ⟨a, ha, hsome⟩
    obtain ⟨r, hr, rfl⟩ := List.mem_map.1 ha
    obtain ⟨_, ht, hn, _⟩ := (mem_printed hi r).1 hr
    change (if r.s = s then some r.den else none).isSome = true at hsome
    split at hsome
    · rename_i hc'
      rw [hc', hall r.t ht] at hn; cases hn
    · cases hsome

/-- **C223 (file).** The file printed is a sequence of complete records, one for each pair with a numerator, with that numerator and the
denominator of the source word (0 if it has none), in increasing order of target and source. -/
theorem C223_file (h : List Op) (ho : ∀ o ∈ h, o.Ok) : ∃ rs : List Rec, printBin (run h) = some (rs.flatMap Rec.words) ∧
    (∀ r : Rec, r ∈ rs ↔ r.s < 2 ^ 32 ∧ r.t < 2 ^ 32 ∧ lastNum h r.s r.t = some r.num ∧ r.den = (lastDen h r.s).getD 0) ∧
    rs.Pairwise (fun a b => a.t < b.t ∨ a.t = b.t ∧ a.s < b.s) := by
  have hi := inv_run h ho
  refine ⟨printed (run h) h, printBin_eq hi ho, mem_printed hi, ?_⟩
  unfold printed
  rw [List.pairwise_filterMap]
  refine (List.pairwise_iff_forall_sublist.2 ?_)
  intro k k' hsub r hr r' hr'
  have hlt : k < k' := List.pairwise_iff_forall_sublist.1 hi.sorted hsub
  have hm : k ∈ SMap.keys (run h) := hsub.subset (by simp)
  have hm' : k' ∈ SMap.keys (run h) := hsub.subset (by simp)
  have key : ∀ k ∈ SMap.keys (run h), ∀ r, recOf h k = some r → k = enc [r.t, r.s] ∧ r.t < 2 ^ 32 ∧ r.s < 2 ^ 32 := by
    intro k hk r hr
    rcases hi.keys k hk with ⟨s, hs, rfl⟩ | ⟨s, t, hs, ht, rfl⟩
    · unfold recOf at hr
      rw [decK_enc (by simp; exact hs)] at hr
      cases hr
    · unfold recOf at hr
      rw [decK_enc (by simp; exact ⟨ht, hs⟩)] at hr
      obtain ⟨n, _, rfl⟩ := Option.map_eq_some_iff.1 hr
      exact ⟨rfl, ht, hs⟩
  obtain ⟨e1, a1, b1⟩ := key k hm r hr
  obtain ⟨e2, a2, b2⟩ := key k' hm' r' hr'
  rw [e1, e2, enc_lt (by simp; exact ⟨a1, b1⟩) (by simp; exact ⟨a2, b2⟩), List.cons_lt_cons_iff, cons_lt_single] at hlt
  exact hlt

/-- Two databases that give the same answers. -/
def SameTable (db db' : Db) : Prop := ∀ s t, s < 2 ^ 32 → t < 2 ^ 32 → getNumer db s t = getNumer db' s t ∧ getDenom db s = getDenom db' s

/-- The full property: loading from a prefix on which a table has been printed gives that table. -/
def C223_full : Prop := ∀ (d d1 d2 : Disk) (h : List Op) (pre : Str) (ok : Bool), (∀ o ∈ h, o.Ok) → print d (run h) pre = some d1 →
  load d1 pre = some (d2, ok) → ok = true ∧ ∃ db, d2.dbs (pre ++ "_ldb_hmm_lexnd".toList) = some db ∧ SameTable (run h) db

theorem reread {h : List Op} (ho : ∀ o ∈ h, o.Ok) : ∃ f db, printBin (run h) = some f ∧ readLoop [] f = some db ∧
    ∀ s t, s < 2 ^ 32 → t < 2 ^ 32 → getNumer db s t = getNumer (run h) s t ∧
      getDenom db s = some (if ∃ t', t' < 2 ^ 32 ∧ (lastNum h s t').isSome then ((lastDen h s).getD 0, true) else (0, false)) := by
  have hi := inv_run h ho
  have hok := printed_ok hi ho
  refine ⟨_, run ((printed (run h) h).map Rec.op), printBin_eq hi ho, readLoop_recs _ [], ?_⟩
  intro s t hs ht
  obtain ⟨g1, g2⟩ := C222_get _ hok s t hs ht
  obtain ⟨g3, _⟩ := C222_get h ho s t hs ht
  refine ⟨by rw [g1, g3, printed_num hi s t hs ht], ?_⟩
  rw [g2]
  split
  · rename_i hex
    obtain ⟨t', ht', hsome⟩ := hex
    rw [(printed_den hi s hs).1 t' ht' hsome]; rfl
  · rename_i hex
    rw [(printed_den hi s hs).2 (fun t' ht' => by
      cases hl : lastNum h s t' with
      | none => rfl
      | some x => exact absurd ⟨t', ht', by rw [hl]; rfl⟩ hex)]
    rfl

/-- **C223, what holds**: if there is no database at the prefix, numerators are kept, and so are the denominators (0 if there is none) of the
source words that have some numerator; the other denominators are lost. -/
theorem C223_roundtrip_partial (d : Disk) (h : List Op) (pre : Str) (ho : ∀ o ∈ h, o.Ok) (hno : d.dbs (pre ++ "_ldb_hmm_lexnd".toList) = none) :
    ∃ d1 d2 db, print d (run h) pre = some d1 ∧ load d1 pre = some (d2, true) ∧ d2.dbs (pre ++ "_ldb_hmm_lexnd".toList) = some db ∧
      ∀ s t, s < 2 ^ 32 → t < 2 ^ 32 → getNumer db s t = getNumer (run h) s t ∧
        getDenom db s = some (if ∃ t', t' < 2 ^ 32 ∧ (lastNum h s t').isSome then ((lastDen h s).getD 0, true) else (0, false)) := by
  obtain ⟨f, db, h1, h2, h3⟩ := reread ho
  refine ⟨{ d with files := fun q => if q = pre ++ ".hmm_lexnd".toList then some f else d.files q },
    setDb { d with files := fun q => if q = pre ++ ".hmm_lexnd".toList then some f else d.files q } (pre ++ "_ldb_hmm_lexnd".toList) db, db, ?_, ?_, ?_, h3⟩
  · unfold print; rw [h1]; rfl
  · unfold load ldbExt binExt
    rw [show ({ d with files := fun q => if q = pre ++ ".hmm_lexnd".toList then some f else d.files q } : Disk).dbs (pre ++ "_ldb_hmm_lexnd".toList) = none from hno]
    show (match (if pre ++ ".hmm_lexnd".toList = pre ++ ".hmm_lexnd".toList then some f else d.files (pre ++ ".hmm_lexnd".toList)) with
      | none => _
      | some f => (readLoop [] f).map _) = _
    rw [if_pos rfl]
    show (readLoop [] f).map _ = _
    rw [h2]
    rfl
  · show (if pre ++ "_ldb_hmm_lexnd".toList = pre ++ "_ldb_hmm_lexnd".toList then some db else _) = _
    rw [if_pos rfl]

/-- A corollary: a table in which exactly the words with numerators have denominators is recovered. -/
theorem C223_same_partial (d : Disk) (h : List Op) (pre : Str) (ho : ∀ o ∈ h, o.Ok) (hno : d.dbs (pre ++ "_ldb_hmm_lexnd".toList) = none)
    (hd : ∀ s, s < 2 ^ 32 → ((lastDen h s).isSome ↔ ∃ t, t < 2 ^ 32 ∧ (lastNum h s t).isSome)) :
    ∃ d1 d2 db, print d (run h) pre = some d1 ∧ load d1 pre = some (d2, true) ∧ d2.dbs (pre ++ "_ldb_hmm_lexnd".toList) = some db ∧ SameTable (run h) db := by
  obtain ⟨d1, d2, db, h1, h2, h3, h4⟩ := C223_roundtrip_partial d h pre ho hno
  refine ⟨d1, d2, db, h1, h2, h3, ?_⟩
  intro s t hs ht
  obtain ⟨a, b⟩ := h4 s t hs ht
  refine ⟨a.symm, ?_⟩
  rw [b, (C222_get h ho s t hs ht).2]
  cases hl : lastDen h s with
  | none =>
    rw [if_neg]
    · rfl
    · intro hex
      have := (hd s hs).2 hex
      rw [hl] at this; cases this
  | some x =>
    rw [if_pos ((hd s hs).1 (by rw [hl]; rfl))]
    rfl

/-- False of the code: a database already stored at the prefix is loaded instead of the printed file. -/
theorem C223_counterexample : ¬ C223_full := by
  intro h
  have h0 := h ⟨fun _ => some [], fun _ => none⟩ _ _ [.both 3 5 7 8] [] true (by simp [Op.Ok]) rfl rfl
  obtain ⟨_, db, h1, h2⟩ := h0
  cases h1
  have := (h2 3 5 (by decide) (by decide)).1
  revert this
  decide +kernel

/-- Also without such a database: a denominator of a word without numerators is lost. -/
theorem C223_lost_denominator : ∃ d1 d2 db, print ⟨fun _ => none, fun _ => none⟩ (run [.den 3 8]) [] = some d1 ∧ load d1 [] = some (d2, true) ∧
    d2.dbs ([] ++ "_ldb_hmm_lexnd".toList) = some db ∧ getDenom (run [.den 3 8]) 3 = some (8, true) ∧ getDenom db 3 = some (0, false) := by
  refine ⟨_, _, _, rfl, rfl, rfl, ?_, ?_⟩ <;> decide +kernel

/-- **C223 (missing model).** Loading a model that does not exist fails, but leaves an empty database on the disk, and loading it again succeeds. -/
theorem C223_missing (d : Disk) (pre : Str) (h1 : d.dbs (pre ++ "_ldb_hmm_lexnd".toList) = none) (h2 : d.files (pre ++ ".hmm_lexnd".toList) = none) :
    ∃ d1, load d pre = some (d1, false) ∧ load d1 pre = some (d1, true) ∧ d1.dbs (pre ++ "_ldb_hmm_lexnd".toList) = some [] := by
  have e : (setDb d (pre ++ "_ldb_hmm_lexnd".toList) []).dbs (pre ++ "_ldb_hmm_lexnd".toList) = some [] := by
    show (if pre ++ "_ldb_hmm_lexnd".toList = pre ++ "_ldb_hmm_lexnd".toList then some [] else _) = _
    rw [if_pos rfl]
  refine ⟨setDb d (pre ++ "_ldb_hmm_lexnd".toList) [], ?_, ?_, e⟩
  · unfold load ldbExt; simp only [show binExt = ".hmm_lexnd".toList from rfl]; rw [h1, h2]
  · unfold load ldbExt; simp only [show binExt = ".hmm_lexnd".toList from rfl]; rw [e]

/-- **C223 (thot_lextable_to_leveldb).** The database has the last numerator of each pair and the last denominator of each word of the
records of the file. -/
theorem C223_convert (d : Disk) (input out : Str) (rs : List Rec) (hf : d.files input = some (rs.flatMap Rec.words))
    (hok : ∀ r ∈ rs, r.s < 2 ^ 32 ∧ r.t < 2 ^ 32 ∧ r.num < 2 ^ 32 ∧ r.den < 2 ^ 32) : ∃ d' db, convert d input out = some (d', true) ∧
    d'.dbs (out ++ "_ldb_hmm_lexnd".toList) = some db ∧ ∀ s t, s < 2 ^ 32 → t < 2 ^ 32 →
      getNumer db s t = some ((((rs.filter fun r => r.s = s ∧ r.t = t).getLast?.map Rec.num).getD 0),
        decide (∃ r ∈ rs, r.s = s ∧ r.t = t)) ∧
      getDenom db s = some ((((rs.filter fun r => r.s = s).getLast?.map Rec.den).getD 0), decide (∃ r ∈ rs, r.s = s)) := by
  refine ⟨setDb d (out ++ "_ldb_hmm_lexnd".toList) (run (rs.map Rec.op)), run (rs.map Rec.op), ?_, ?_, ?_⟩
  · unfold convert; rw [hf]
    show (readLoop [] _).map _ = _
    rw [readLoop_recs]; rfl
  · show (if out ++ "_ldb_hmm_lexnd".toList = out ++ "_ldb_hmm_lexnd".toList then _ else _) = _
    rw [if_pos rfl]
  · have aux : ∀ (p : Rec → Bool) (f : Rec → Nat) (g : Op → Option Nat) (_ : ∀ r, g r.op = if p r then some (f r) else none) (rs : List Rec),
        ((rs.map Rec.op).filterMap g).getLast? = (rs.filter p).getLast?.map f := by
      intro p f g hg rs
      have : (rs.map Rec.op).filterMap g = (rs.filter p).map f := by
        induction rs with
        | nil => rfl
        | cons r rs ih =>
          rw [List.map_cons, List.filterMap_cons, hg, ih, List.filter_cons]
          by_cases hp : p r = true
          · rw [if_pos hp, if_pos hp]; rfl
          · rw [if_neg hp, if_neg hp]
      rw [this, List.getLast?_map]
    have aux2 : ∀ (p : Rec → Bool) (f : Rec → Nat), ((rs.filter p).getLast?.map f).isSome = decide (∃ r ∈ rs, p r = true) := by
      intro p f
      rw [Bool.eq_iff_iff, decide_eq_true_eq, Option.isSome_map]
      constructor
      · intro hs
        obtain ⟨r, hr⟩ := Option.isSome_iff_exists.1 hs
        have := List.mem_of_getLast? hr
        exact ⟨r, (List.mem_filter.1 this).1, (List.mem_filter.1 this).2⟩
      · rintro ⟨r, hr, hp⟩
        cases hl : (rs.filter p).getLast? with
        | some x => rfl
        | none =>
          have hn : rs.filter p = [] := List.getLast?_eq_none_iff.1 hl
          have hm : r ∈ rs.filter p := List.mem_filter.2 ⟨hr, hp⟩
          rw [hn] at hm; cases hm
    intro s t hs ht
    obtain ⟨g1, g2⟩ := C222_get (rs.map Rec.op) (by
      intro o hm
      obtain ⟨r, hr, rfl⟩ := List.mem_map.1 hm
      exact hok r hr) s t hs ht
    refine ⟨?_, ?_⟩
    · rw [g1]
      have e := aux (fun r => decide (r.s = s ∧ r.t = t)) Rec.num (numOf s t) (fun r => by
        show (if r.s = s ∧ r.t = t then some r.num else none) = _
        simp only [decide_eq_true_eq]) rs
      have e2 := aux2 (fun r => decide (r.s = s ∧ r.t = t)) Rec.num
      unfold lastNum
      rw [e, e2]
      simp only [decide_eq_true_eq]
    · rw [g2]
      have e := aux (fun r => decide (r.s = s)) Rec.den (denOf s) (fun r => by
        show (if r.s = s then some r.den else none) = _
        simp only [decide_eq_true_eq]) rs
      have e2 := aux2 (fun r => decide (r.s = s)) Rec.den
      unfold lastDen
      rw [e, e2]
      simp only [decide_eq_true_eq]

example : ∃ rs : List Rec, rs.length = 2 ∧ ∀ r ∈ rs, r.s < 2 ^ 32 ∧ r.t < 2 ^ 32 ∧ r.num < 2 ^ 32 ∧ r.den < 2 ^ 32 :=
  ⟨[⟨3, 5, 7, 8⟩, ⟨3, 6, 1, 9⟩], rfl, by simp⟩

end Thot.LdbLex
