import Verif.NgramDb.Model
import Verif.LevelDb.Props
import Verif.Common.Sum
namespace Thot.NgramDb
open AMap LevelDb

/-! ### Specification: a table of counts indexed by n-grams -/

/-- What the numbers become when they are printed and read: printing them again changes nothing. -/
structure Fmt (rnd : Rat → Rat) : Prop where
  idem : ∀ x, rnd (rnd x) = rnd x

abbrev Counts := Phrase → Option Rat

/-- The count of `v` becomes `x`. -/
def assign (f : Counts) (v : Phrase) (x : Rat) : Counts := fun u => if u = v then some x else f u

/-- The count kept for `v` when `x` is to be stored: the empty history is kept in memory as it is, the others as text. -/
def kept (rnd : Rat → Rat) (v : Phrase) (x : Rat) : Rat := if v = [] then x else rnd x

/-- A new or cleared table: only the empty history, with count 0. -/
def newCounts : Counts := fun u => if u = [] then some 0 else none

def val (f : Counts) (v : Phrase) : Rat := (f v).getD 0
def known (f : Counts) (v : Phrase) : Bool := (f v).isSome

/-- The effect of each call on the counts. -/
def specStep (rnd : Rat → Rat) (f : Counts) : Op → Counts
  | .add s t cs cst => assign (assign f s (kept rnd s cs)) (s ++ [t]) (rnd cst)
  | .addSrc s c => assign f s (kept rnd s c)
  | .addSrcTrg s t c => assign f (s ++ [t]) (rnd c)
  | .incr s t c => assign f (s ++ [t]) (rnd (val f (s ++ [t]) + c))
  | .reload => fun u => if u = [] then some (rnd (val f [])) else f u
  | .clear => newCounts

def spec (rnd : Rat → Rat) (os : List Op) : Counts := os.foldl (specStep rnd) newCounts

/-- N-grams the table can hold: word indices below 254^3 and at most 251 words. -/
def Ok (v : Phrase) : Prop := Fits 3 v ∧ v.length ≤ 251

/-- Calls with n-grams of that kind. -/
def OpOk : Op → Prop
  | .add s t _ _ | .addSrcTrg s t _ | .incr s t _ => Ok (s ++ [t])
  | .addSrc s _ => Ok s
  | .reload | .clear => True

/-! ### Keys -/

theorem nkey_inj {u v : Phrase} (hu : Fits 3 u) (hv : Fits 3 v) : ngramToString u = ngramToString v ↔ u = v := by
  constructor
  · intro h
    have h1 := (C28_ngram u hu).1
    rw [h, (C28_ngram v hv).1] at h1
    exact (Option.some.inj h1).symm
  · rintro rfl; rfl

theorem nkey_null (v : Phrase) : ngramToString v ≠ nullKey := by
  intro h
  have := congrArg List.length h
  simp only [ngramToString, nullKey, List.length_cons, key_length, List.length_nil] at this
  omega

theorem ok_init {s : Phrase} {t : Nat} (h : Ok (s ++ [t])) : Ok s := by
  refine ⟨(fits_append.1 h.1).1, ?_⟩
  have := h.2
  simp at this; omega

/-! ### Invariant -/

structure Inv (rnd : Rat → Rat) (f : Counts) (tb : Tbl) : Prop where
  distinct : Distinct tb.db
  look : ∀ v, v ≠ [] → Fits 3 v → lk tb.db (ngramToString v) = f v
  keys : ∀ e ∈ tb.db, e.1 = nullKey ∨ ∃ v, v ≠ [] ∧ Ok v ∧ e.1 = ngramToString v
  nul : f [] = some tb.nul
  nulDb : lk tb.db nullKey = some (rnd tb.nul)
  dom : ∀ v, f v ≠ none → Ok v

theorem keys_put {db : Db} (hd : Distinct db) (k : Bytes) (x : Rat)
    (hk : k = nullKey ∨ ∃ v, v ≠ [] ∧ Ok v ∧ k = ngramToString v)
    (h : ∀ e ∈ db, e.1 = nullKey ∨ ∃ v, v ≠ [] ∧ Ok v ∧ e.1 = ngramToString v) :
    ∀ e ∈ put db k x, e.1 = nullKey ∨ ∃ v, v ≠ [] ∧ Ok v ∧ e.1 = ngramToString v := by
  intro e he
  have := (lk_some_iff (distinct_put hd k x)).2 (show (e.1, e.2) ∈ put db k x from he)
  rw [lk_put] at this
  split at this
  · next h1 => rw [h1]; exact hk
  · exact h _ ((lk_some_iff hd).1 this)

theorem inv_store {rnd : Rat → Rat} {f : Counts} {tb : Tbl} (h : Inv rnd f tb) (v : Phrase) (x : Rat) (hv : Ok v) :
    Inv rnd (assign f v (kept rnd v x)) (storeData rnd tb v x) := by
  by_cases h0 : v = []
  · subst h0
    have e : storeData rnd tb [] x = ⟨put tb.db nullKey (rnd x), x⟩ := by simp [storeData, storeKey]
    rw [e]
    refine ⟨distinct_put h.distinct _ _, ?_, keys_put h.distinct _ _ (.inl rfl) h.keys, ?_, ?_, ?_⟩
    · intro u hu hf
      rw [lk_put_ne _ _ (nkey_null u), h.look u hu hf]
      simp [assign, hu]
    · simp [assign, kept]
    · simp
    · intro u hu
      simp only [assign] at hu
      split at hu
      · next h1 => rw [h1]; exact hv
      · exact h.dom u hu
  · have e : storeData rnd tb v x = ⟨put tb.db (ngramToString v) (rnd x), tb.nul⟩ := by
      have : v.length ≠ 0 := by simpa using h0
      simp [storeData, storeKey, h0]
    rw [e]
    refine ⟨distinct_put h.distinct _ _, ?_, keys_put h.distinct _ _ (.inr ⟨v, h0, hv, rfl⟩) h.keys, ?_, ?_, ?_⟩
    · intro u hu hf
      rw [lk_put]
      by_cases he : u = v
      · subst he
        simp [assign, kept, h0]
      · rw [if_neg (fun hc => he ((nkey_inj hf hv.1).1 hc)), h.look u hu hf]
        simp [assign, he]
    · simp only [assign, if_neg (Ne.symm h0)]; exact h.nul
    · rw [lk_put_ne _ _ (fun hc => nkey_null v hc.symm)]; exact h.nulDb
    · intro u hu
      simp only [assign] at hu
      split at hu
      · next h1 => rw [h1]; exact hv
      · exact h.dom u hu

theorem inv_new (rnd : Rat → Rat) : Inv rnd newCounts (cleared rnd) := by
  refine ⟨?_, ?_, ?_, ?_, ?_, ?_⟩
  · simp [cleared, storeKey, put, Distinct]
  · intro v hv hf
    simp only [cleared, storeKey, newCounts, if_neg hv, lk_put, if_neg (nkey_null v)]
    rfl
  · intro e he
    simp only [cleared, storeKey, put, List.mem_singleton] at he
    exact .inl (by rw [he])
  · simp [newCounts, cleared]
  · simp [cleared, storeKey]
  · intro v hv
    simp only [newCounts] at hv
    split at hv
    · next h => subst h; exact ⟨by intro w hw; simp at hw, by simp⟩
    · simp at hv

theorem getInfo_spec {rnd : Rat → Rat} {f : Counts} {tb : Tbl} (h : Inv rnd f tb) (v : Phrase) (hv : Fits 3 v) :
    getInfo tb v = (val f v, known f v) := by
  by_cases h0 : v = []
  · subst h0
    simp [getInfo, val, known, h.nul]
  · have h1 := h.look v h0 hv
    simp only [getInfo, List.length_eq_zero_iff, if_neg h0, retrieveKey, h1, val, known]
    cases f v <;> simp

theorem kept_st (rnd : Rat → Rat) (s : Phrase) (t : Nat) (x : Rat) : kept rnd (s ++ [t]) x = rnd x := by simp [kept]

theorem inv_step {rnd : Rat → Rat} (hr : Fmt rnd) {f : Counts} {tb : Tbl} (h : Inv rnd f tb) (o : Op) (ho : OpOk o) :
    Inv rnd (specStep rnd f o) (step rnd tb o) := by
  cases o with
  | add s t cs cst =>
    have h1 := inv_store h s cs (ok_init ho)
    have h2 := inv_store h1 (s ++ [t]) cst ho
    rw [kept_st] at h2
    exact h2
  | addSrc s c => exact inv_store h s c ho
  | addSrcTrg s t c =>
    have h2 := inv_store h (s ++ [t]) c ho
    rw [kept_st] at h2
    exact h2
  | incr s t c =>
    have h2 := inv_store h (s ++ [t]) (cSrcTrg tb s t + c) ho
    rw [kept_st] at h2
    have e : cSrcTrg tb s t = val f (s ++ [t]) := by
      simp only [cSrcTrg, getSrcTrg]
      rw [getInfo_spec h _ ho.1]
    rw [e] at h2
    simp only [step, incr, specStep, addSrcTrgInfo]
    rw [e]
    exact h2
  | reload =>
    have e1 : (retrieveKey tb.db nullKey).1 = rnd tb.nul := by simp [retrieveKey, h.nulDb]
    have e0 : val f [] = tb.nul := by simp [val, h.nul]
    simp only [step, load, specStep]
    rw [e1, e0]
    by_cases hz : rnd tb.nul = 0
    · rw [if_pos hz]
      refine ⟨distinct_put h.distinct _ _, ?_, keys_put h.distinct _ _ (.inl rfl) h.keys, ?_, ?_, ?_⟩
      · intro u hu hf
        simp only [storeKey]
        rw [lk_put_ne _ _ (nkey_null u), h.look u hu hf, if_neg hu]
      · simp
      · simp [storeKey]
      · intro u hu
        by_cases hc : u = []
        · subst hc; exact ⟨by intro w hw; simp at hw, by simp⟩
        · rw [if_neg hc] at hu; exact h.dom u hu
    · rw [if_neg hz]
      refine ⟨h.distinct, ?_, h.keys, ?_, ?_, ?_⟩
      · intro u hu hf
        rw [h.look u hu hf, if_neg hu]
      · simp
      · simp only [h.nulDb, hr.idem]
      · intro u hu
        by_cases hc : u = []
        · subst hc; exact ⟨by intro w hw; simp at hw, by simp⟩
        · rw [if_neg hc] at hu; exact h.dom u hu
  | clear => exact inv_new rnd

theorem inv_run {rnd : Rat → Rat} (hr : Fmt rnd) (os : List Op) (ho : ∀ o ∈ os, OpOk o) :
    Inv rnd (spec rnd os) (run rnd os) := by
  have : ∀ (os : List Op) f tb, Inv rnd f tb → (∀ o ∈ os, OpOk o) →
      Inv rnd (os.foldl (specStep rnd) f) (os.foldl (step rnd) tb) := by
    intro os
    induction os with
    | nil => intro f tb h _; exact h
    | cons o os ih =>
      intro f tb h ho
      exact ih _ _ (inv_step hr h o (ho o (List.mem_cons_self ..))) (fun o' h' => ho o' (List.mem_cons_of_mem _ h'))
  exact this os _ _ (inv_new rnd) ho

/-! ### C181: counts and probabilities -/

/-- **C181 (partial).** After any history of calls, the counts of histories and of n-grams, what is reported as found and
the relative frequency of a word after a history are those of the table of n-gram counts in which every call assigns the
counts it is given (an increment: the old count plus the increment), as they are printed. -/
theorem C181_counts_partial {rnd : Rat → Rat} (hr : Fmt rnd) (os : List Op) (ho : ∀ o ∈ os, OpOk o) (s : Phrase) (t : Nat)
    (h : Ok (s ++ [t])) :
    cSrc (run rnd os) s = val (spec rnd os) s ∧
    cSrcTrg (run rnd os) s t = val (spec rnd os) (s ++ [t]) ∧
    infSrcTrg (run rnd os) s t =
      ((val (spec rnd os) s, if known (spec rnd os) s then val (spec rnd os) (s ++ [t]) else 0),
        known (spec rnd os) s && known (spec rnd os) (s ++ [t])) ∧
    pTrgGivenSrc (run rnd os) s t =
      (if 0 < val (spec rnd os) (s ++ [t]) ∧ 0 < val (spec rnd os) s then
        val (spec rnd os) (s ++ [t]) / val (spec rnd os) s else 0) := by
  have hi := inv_run hr os ho
  have e1 := getInfo_spec hi s (ok_init h).1
  have e2 := getInfo_spec hi (s ++ [t]) h.1
  have c1 : cSrc (run rnd os) s = val (spec rnd os) s := by simp [cSrc, e1]
  have c2 : cSrcTrg (run rnd os) s t = val (spec rnd os) (s ++ [t]) := by simp [cSrcTrg, getSrcTrg, e2]
  refine ⟨c1, c2, ?_, ?_⟩
  · simp only [infSrcTrg, getSrcTrg, e1, e2]
    cases known (spec rnd os) s <;> simp
  · simp only [pTrgGivenSrc, c1, c2]
    by_cases h1 : 0 < val (spec rnd os) (s ++ [t]) <;> by_cases h2 : 0 < val (spec rnd os) s <;> simp [h1, h2]

/-- The intended property: the count of a history is not changed by storing the count of an n-gram (the table in memory
keeps the two apart). -/
def C181_full : Prop := ∀ (rnd : Rat → Rat), Fmt rnd → ∀ (os : List Op), (∀ o ∈ os, OpOk o) → ∀ (s s' : Phrase) (t : Nat) (c : Rat),
  Ok (s' ++ [t]) → Ok s → cSrc (run rnd (os ++ [.addSrcTrg s' t c])) s = cSrc (run rnd os) s

theorem fmt_id : Fmt id := ⟨fun _ => rfl⟩

/-- False: a history and an n-gram with the same words share their entry, so the history `5` of the bigram `5 6`, with
count 10, gets the count 3 of the unigram `5`. -/
theorem C181_counterexample : ¬ C181_full := by
  intro h
  have := h id fmt_id [.add [5] 6 10 4] (by intro o ho; simp at ho; subst ho; exact ⟨by intro w hw; simp at hw; omega, by simp⟩)
    [5] [] 5 3 ⟨by intro w hw; simp at hw; omega, by simp⟩ ⟨by intro w hw; simp at hw; omega, by simp⟩
  revert this
  decide +kernel

/-- The hypotheses and the table on a concrete history. -/
example : pTrgGivenSrc (run id [.add [] 5 10 4, .add [5] 6 4 2, .incr [5] 6 1, .reload]) [5] 6 = 3 / 4 := by decide +kernel

/-! ### Iteration -/

theorem walk_none : ∀ (l : Db), nullKey ∉ l.map Prod.fst → walk l = l
  | [], _ => rfl
  | [e], h => by
    have : e.1 ≠ nullKey := fun hc => h (by simp [hc])
    simp [walk, this]
  | e :: e' :: r, h => by
    have h1 : e.1 ≠ nullKey := fun hc => h (by simp [hc])
    have ih := walk_none (e' :: r) (fun hc => h (List.mem_cons_of_mem _ hc))
    rw [walk, if_neg h1, ih]

theorem walk_eq : ∀ (l : Db), Distinct l → walk l = l.filter (fun e => decide (e.1 ≠ nullKey))
  | [], _ => rfl
  | [e], _ => by
    by_cases h : e.1 = nullKey <;> simp [walk, h]
  | e :: e' :: r, hd => by
    have hd' : Distinct (e' :: r) := (List.nodup_cons.1 hd).2
    by_cases h : e.1 = nullKey
    · have hn : nullKey ∉ (e' :: r).map Prod.fst := by rw [← h]; exact (List.nodup_cons.1 hd).1
      have hn' : nullKey ∉ r.map Prod.fst := fun hc => hn (List.mem_cons_of_mem _ hc)
      rw [walk, if_pos h, walk_none r hn', List.filter_cons_of_neg (by simp [h])]
      refine (List.filter_eq_self.2 ?_).symm
      intro x hx
      have : x.1 ≠ nullKey := fun hc => hn (hc ▸ List.mem_map_of_mem hx)
      simpa using this
    · rw [walk, if_neg h, walk_eq _ hd']
      exact (List.filter_cons_of_pos (a := e) (by simpa using h)).symm

theorem entries_some {rnd : Rat → Rat} {f : Counts} {tb : Tbl} (h : Inv rnd f tb) :
    ∃ l, entries tb = some l ∧ (l.map Prod.fst).Nodup ∧ (∀ v x, (v, x) ∈ l ↔ v ≠ [] ∧ f v = some x) ∧
      l.length = (walk tb.db).length := by
  have hw := walk_eq tb.db h.distinct
  have hk : ∀ e ∈ walk tb.db, ∃ v, v ≠ [] ∧ Ok v ∧ e.1 = ngramToString v := by
    intro e he
    rw [hw, List.mem_filter] at he
    rcases h.keys e he.1 with h1 | h1
    · simp [h1] at he
    · exact h1
  have hdw : Distinct (walk tb.db) := by
    rw [hw]
    exact (List.filter_sublist.map Prod.fst).nodup h.distinct
  have hm : mapOpt entryAt (walk tb.db) =
      some ((walk tb.db).map (fun e => (((stringToNgram e.1).getD []), e.2))) := by
    apply mapOpt_some
    intro e he
    obtain ⟨v, _, hv, hkv⟩ := hk e he
    simp [entryAt, hkv, (C28_ngram v hv.1).1]
  refine ⟨_, hm, ?_, ?_, by simp⟩
  · rw [List.map_map]
    have : ∀ (l : Db), (∀ e ∈ l, ∃ v, v ≠ [] ∧ Ok v ∧ e.1 = ngramToString v) → Distinct l →
        (l.map (Prod.fst ∘ fun e : Bytes × Rat => (((stringToNgram e.1).getD []), e.2))).Nodup := by
      intro l hl hd
      unfold Distinct at hd
      rw [List.nodup_iff_pairwise_ne, List.pairwise_map] at hd ⊢
      refine List.Pairwise.imp_of_mem (fun {a b} ha hb hab => ?_) hd
      obtain ⟨v, _, hv, hkv⟩ := hl a ha
      obtain ⟨w, _, hw', hkw⟩ := hl b hb
      simp only [Function.comp, hkv, hkw, (C28_ngram v hv.1).1, (C28_ngram w hw'.1).1, Option.getD_some]
      intro hc
      exact hab (by rw [hkv, hkw, hc])
    exact this _ hk hdw
  · intro v x
    simp only [List.mem_map, Prod.mk.injEq]
    constructor
    · rintro ⟨e, he, h1, h2⟩
      obtain ⟨w, hw0, hwk, hkw⟩ := hk e he
      rw [hkw, (C28_ngram w hwk.1).1, Option.getD_some] at h1
      subst h1
      refine ⟨hw0, ?_⟩
      rw [hw, List.mem_filter] at he
      rw [← h.look w hw0 hwk.1, lk_some_iff h.distinct, ← hkw, ← h2]
      exact he.1
    · rintro ⟨hv0, hfx⟩
      have hvk := h.dom v (by simp [hfx])
      rw [← h.look v hv0 hvk.1, lk_some_iff h.distinct] at hfx
      refine ⟨(ngramToString v, x), ?_, ?_, rfl⟩
      · rw [hw, List.mem_filter]
        exact ⟨hfx, by simpa using nkey_null v⟩
      · simp [(C28_ngram v hvk.1).1]

/-- **C185 (iteration).** After any history of calls, iterating over the table gives every n-gram with a count exactly
once, with its count, and never the entry of the empty history; the size is the number of n-grams. -/
theorem C185_iterate {rnd : Rat → Rat} (hr : Fmt rnd) (os : List Op) (ho : ∀ o ∈ os, OpOk o) :
    ∃ l, entries (run rnd os) = some l ∧ (l.map Prod.fst).Nodup ∧
      (∀ v x, (v, x) ∈ l ↔ v ≠ [] ∧ spec rnd os v = some x) ∧ size (run rnd os) = l.length := by
  obtain ⟨l, h1, h2, h3, h4⟩ := entries_some (inv_run hr os ho)
  exact ⟨l, h1, h2, h3, h4.symm⟩

/-- **C185 (closing and opening).** Opening the database again gives the same counts; that of the empty history is
the one printed. Clearing leaves no n-gram. -/
theorem C185_reload {rnd : Rat → Rat} (hr : Fmt rnd) (os : List Op) (ho : ∀ o ∈ os, OpOk o) (s : Phrase) (hs : Ok s) :
    cSrc (run rnd (os ++ [.reload])) s = (if s = [] then rnd (cSrc (run rnd os) []) else cSrc (run rnd os) s) ∧
    size (run rnd (os ++ [.reload])) = size (run rnd os) ∧
    cSrc (run rnd (os ++ [.clear])) s = 0 ∧ size (run rnd (os ++ [.clear])) = 0 := by
  have g : ∀ os', (∀ o ∈ os', OpOk o) → ∀ s, Ok s → cSrc (run rnd os') s = val (spec rnd os') s := by
    intro os' h' s hs'
    simp [cSrc, getInfo_spec (inv_run hr os' h') s hs'.1]
  have ho1 : ∀ o ∈ os ++ [.reload], OpOk o := by
    intro o h
    rcases List.mem_append.1 h with h | h
    · exact ho o h
    · simp at h; subst h; trivial
  have ho2 : ∀ o ∈ os ++ [.clear], OpOk o := by
    intro o h
    rcases List.mem_append.1 h with h | h
    · exact ho o h
    · simp at h; subst h; trivial
  have hnil : Ok [] := ⟨by intro w hw; simp at hw, by simp⟩
  refine ⟨?_, ?_, ?_, ?_⟩
  · rw [g _ ho1 s hs, g _ ho s hs, g _ ho [] hnil]
    simp only [spec, List.foldl_append, List.foldl_cons, List.foldl_nil, specStep]
    by_cases h : s = []
    · subst h; simp [val]
    · simp [val, h]
  · obtain ⟨l, _, h2, h3, h4⟩ := C185_iterate hr os ho
    obtain ⟨l', _, h2', h3', h4'⟩ := C185_iterate hr _ ho1
    rw [h4, h4']
    have hnd : ∀ {l : List (Phrase × Rat)}, (l.map Prod.fst).Nodup → l.Nodup := fun h => List.Pairwise.of_map Prod.fst (fun a b h hc => h (hc ▸ rfl)) h
    refine List.Perm.length_eq ?_
    refine (List.perm_ext_iff_of_nodup (hnd h2') (hnd h2)).2 ?_
    intro e
    obtain ⟨v, x⟩ := e
    rw [h3 v x, h3' v x]
    simp only [spec, List.foldl_append, List.foldl_cons, List.foldl_nil, specStep]
    constructor
    · rintro ⟨h, hx⟩; exact ⟨h, by rwa [if_neg h] at hx⟩
    · rintro ⟨h, hx⟩; exact ⟨h, by rwa [if_neg h]⟩
  · rw [g _ ho2 s hs]
    simp only [spec, List.foldl_append, List.foldl_cons, List.foldl_nil, specStep, newCounts, val]
    split <;> rfl
  · simp [run, List.foldl_append, step, cleared, storeKey, put, size, walk]

example : size (run id [.add [] 5 10 4, .add [5] 6 4 2, .incr [5] 6 1, .reload]) = 2 ∧
    entries (run id [.add [] 5 10 4, .add [5] 6 4 2, .incr [5] 6 1, .reload]) = some [([5], 4), ([5, 6], 3)] := by
  decide +kernel

end Thot.NgramDb
