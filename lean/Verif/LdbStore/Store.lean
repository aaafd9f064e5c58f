import Verif.LdbStore.Model

/-!
C224: what loading, clearing, changing and printing a LevelDB phrase model do to the databases on disk.
-/
namespace Thot.LdbStore
open Thot.Awk (Str)

section
variable {D W : Type} (empty : D) (opens : Str → Bool)

/-! ### Specification -/

/-- The contents of the table of a model: those of the database on disk with its name. -/
def view (m : Mdl D W) : Option D := m.tbl.disk m.tbl.name

/-- The databases that a history names. -/
def named : List (Op D) → List Str
  | [] => []
  | .load p :: os => (p ++ "_ldb_phrdict".toList) :: named os
  | _ :: os => named os

/-- The full property: loading models and clearing objects (the other translation models are cleared in memory only) changes no
database that exists on disk. -/
def C224_full : Prop := ∀ (D W : Type) (empty : D) (opens : Str → Bool) (vocs : Str → Option W) (ev : W) (disk : Str → Option D) (ops : List (Op D)) (m : Mdl D W)
    (q : Str) (x : D), (∀ o ∈ ops, ∀ f, o ≠ .upd f) → mRun empty opens vocs ev ops (fresh disk ev) = some m → disk q = some x → m.tbl.disk q = some x

/-! ### Proofs -/

theorem setDb_same (d : Str → Option D) (p : Str) (x : D) : setDb d p x p = some x := if_pos rfl
theorem setDb_other (d : Str → Option D) {p q : Str} (x : D) (h : q ≠ p) : setDb d p x q = d q := if_neg h

theorem load_self (d : Str → Option D) (p q : Str) : setDb d p ((d p).getD empty) q = if q = p then some ((d p).getD empty) else d q := rfl

/-- **C224 (first load, what holds).** The first load of an object fails exactly if a vocabulary cannot be read or the database cannot be opened. If it
succeeds the table has the contents of the database on disk (a database that does not exist is created empty, without an error), the
vocabularies are those of the files, the object prints under that prefix only, and no other database changes. If it fails no database changes. -/
theorem C224_first_partial (vocs : Str → Option W) (ev : W) (disk : Str → Option D) (p : Str) :
    ∃ m ok, mLoad empty opens vocs (fresh disk ev) p = some (m, ok) ∧
    (ok = true ↔ (vocs (p ++ ".ldb_svcb".toList)).isSome ∧ (vocs (p ++ ".ldb_tvcb".toList)).isSome ∧ opens (p ++ "_ldb_phrdict".toList) = true) ∧
    (ok = true → view m = some ((disk (p ++ "_ldb_phrdict".toList)).getD empty) ∧ some m.svoc = vocs (p ++ ".ldb_svcb".toList) ∧
      some m.tvoc = vocs (p ++ ".ldb_tvcb".toList) ∧ (∀ q, mPrint m q = true ↔ q = p) ∧ m.tbl.isOpen = true) ∧
    (∀ q, m.tbl.disk q = if ok = true ∧ q = p ++ "_ldb_phrdict".toList then some ((disk q).getD empty) else disk q) := by
  have hc : tClear empty opens (fresh disk ev).tbl = some ⟨disk, [], false⟩ := rfl
  unfold mLoad
  rw [hc]
  cases hs : vocs (p ++ ".ldb_svcb".toList) with
  | none => exact ⟨_, _, rfl, by simp, by simp, fun q => by simp⟩
  | some sv =>
    cases ht : vocs (p ++ ".ldb_tvcb".toList) with
    | none => exact ⟨_, _, rfl, by simp, by simp, fun q => by simp⟩
    | some tv =>
      show ∃ m ok, (if (tLoad empty opens ⟨disk, [], false⟩ (dbOf p)).2 then some (_, true) else some (_, false)) = some (m, ok) ∧ _
      unfold tLoad
      by_cases ho : opens (dbOf p) = true
      · rw [if_pos ho, if_pos rfl]
        refine ⟨_, _, rfl, ?_, ?_, ?_⟩
        · exact ⟨fun _ => ⟨rfl, rfl, ho⟩, fun _ => rfl⟩
        · intro _
          refine ⟨setDb_same _ _ _, rfl, rfl, ?_, rfl⟩
          intro q
          unfold mPrint
          by_cases hq : p = q
          · rw [if_pos hq]; exact ⟨fun _ => hq.symm, fun _ => rfl⟩
          · rw [if_neg hq]; exact ⟨(fun h => by cases h), fun h => absurd h.symm hq⟩
        · intro q
          show (if q = dbOf p then some ((disk (dbOf p)).getD empty) else disk q) = _
          by_cases hq : q = dbOf p
          · rw [if_pos hq, if_pos ⟨rfl, hq⟩, hq]
          · rw [if_neg hq, if_neg (fun c => hq c.2)]
      · rw [if_neg ho, if_neg (by simp)]
        refine ⟨_, _, rfl, ?_, by simp, fun q => by simp⟩
        constructor
        · intro h; cases h
        · intro h; exact absurd h.2.2 ho

/-- **C224 (later loads).** Loading into an object that has a database empties that database on disk, whether or not the new
model can be loaded; the other databases are as in a first load. -/
theorem C224_load_damage (vocs : Str → Option W) (m : Mdl D W) (p : Str) (hn : m.tbl.name ≠ []) (ho : opens m.tbl.name = true) :
    ∃ m' ok, mLoad empty opens vocs m p = some (m', ok) ∧ m'.tbl.disk m.tbl.name = some empty ∧
      (∀ q, q ≠ m.tbl.name → m'.tbl.disk q = if ok = true ∧ q = p ++ "_ldb_phrdict".toList then some ((m.tbl.disk q).getD empty) else m.tbl.disk q) ∧
      (ok = true ↔ (vocs (p ++ ".ldb_svcb".toList)).isSome ∧ (vocs (p ++ ".ldb_tvcb".toList)).isSome ∧ opens (p ++ "_ldb_phrdict".toList) = true) := by
  have hc : tClear empty opens m.tbl = some ⟨setDb m.tbl.disk m.tbl.name empty, m.tbl.name, true⟩ := by
    unfold tClear; rw [if_neg hn, if_pos ho]
  unfold mLoad
  rw [hc]
  have hsame := setDb_same m.tbl.disk m.tbl.name empty
  cases hs : vocs (p ++ ".ldb_svcb".toList) with
  | none => exact ⟨_, _, rfl, hsame, fun q hq => by simp [setDb_other _ _ hq], by simp⟩
  | some sv =>
    cases ht : vocs (p ++ ".ldb_tvcb".toList) with
    | none => exact ⟨_, _, rfl, hsame, fun q hq => by simp [setDb_other _ _ hq], by simp⟩
    | some tv =>
      show ∃ m' ok, (if (tLoad empty opens ⟨setDb m.tbl.disk m.tbl.name empty, m.tbl.name, true⟩ (dbOf p)).2 then some (_, true) else some (_, false)) = some (m', ok) ∧ _
      unfold tLoad
      by_cases hop : opens (dbOf p) = true
      · rw [if_pos hop, if_pos rfl]
        refine ⟨_, _, rfl, ?_, ?_, fun _ => ⟨rfl, rfl, hop⟩, fun _ => rfl⟩
        · show (if m.tbl.name = dbOf p then some (((setDb m.tbl.disk m.tbl.name empty) (dbOf p)).getD empty) else _) = _
          by_cases hq : m.tbl.name = dbOf p
          · rw [if_pos hq, ← hq, hsame]; rfl
          · rw [if_neg hq]; exact hsame
        · intro q hq
          show (if q = dbOf p then some (((setDb m.tbl.disk m.tbl.name empty) (dbOf p)).getD empty) else setDb m.tbl.disk m.tbl.name empty q) = _
          by_cases hqp : q = dbOf p
          · rw [if_pos hqp, if_pos ⟨rfl, hqp⟩, ← hqp, setDb_other _ _ hq]
          · rw [if_neg hqp, if_neg (fun c => hqp c.2), setDb_other _ _ hq]
      · rw [if_neg hop, if_neg (by simp)]
        refine ⟨_, _, rfl, hsame, fun q hq => by simp [setDb_other _ _ hq], ?_, ?_⟩
        · intro h; cases h
        · intro h; exact absurd h.2.2 hop

/-- **C224 (clear).** `clear` destroys the contents of the database of the object on disk, and no other. -/
theorem C224_clear (ev : W) (m : Mdl D W) (ho : opens m.tbl.name = true) :
    ∃ m', mClear empty opens ev m = some m' ∧ m'.svoc = ev ∧ m'.tvoc = ev ∧
      ∀ q, m'.tbl.disk q = if q = m.tbl.name ∧ m.tbl.name ≠ [] then some empty else m.tbl.disk q := by
  unfold mClear tClear
  by_cases hn : m.tbl.name = []
  · rw [if_pos hn]
    exact ⟨_, rfl, rfl, rfl, fun q => by simp [hn]⟩
  · rw [if_neg hn, if_pos ho]
    refine ⟨_, rfl, rfl, rfl, ?_⟩
    intro q
    show (if q = m.tbl.name then some empty else m.tbl.disk q) = _
    by_cases hq : q = m.tbl.name
    · rw [if_pos hq, if_pos ⟨hq, hn⟩]
    · rw [if_neg hq, if_neg (fun c => hq c.1)]

/-- What one call changes: databases other than the one of the object and the one it names are as before; the name is
one of these. -/
theorem step_frame (vocs : Str → Option W) (ev : W) (m m' : Mdl D W) (o : Op D) (h : mStep empty opens vocs ev m o = some m') :
    (∀ q, q ≠ m.tbl.name → q ∉ named [o] → m'.tbl.disk q = m.tbl.disk q) ∧ (m'.tbl.name = m.tbl.name ∨ m'.tbl.name ∈ named [o]) := by
  have hclear : ∀ y, tClear empty opens m.tbl = some y → (∀ q, q ≠ m.tbl.name → y.disk q = m.tbl.disk q) ∧ y.name = m.tbl.name := by
    intro y hy
    unfold tClear at hy
    by_cases hn : m.tbl.name = []
    · rw [if_pos hn] at hy; cases hy; exact ⟨fun _ _ => rfl, rfl⟩
    · rw [if_neg hn] at hy
      by_cases ho : opens m.tbl.name = true
      · rw [if_pos ho] at hy; cases hy; exact ⟨fun q hq => setDb_other _ _ hq, rfl⟩
      · rw [if_neg ho] at hy; cases hy
  cases o with
  | clear =>
    obtain ⟨y, hy, rfl⟩ := Option.map_eq_some_iff.1 h
    exact ⟨fun q hq _ => (hclear y hy).1 q hq, .inl (hclear y hy).2⟩
  | upd f =>
    obtain ⟨y, hy, rfl⟩ := Option.map_eq_some_iff.1 h
    unfold tUpd at hy
    split at hy
    · cases hy; exact ⟨fun q hq _ => setDb_other _ _ hq, .inl rfl⟩
    · cases hy
  | load p =>
    obtain ⟨⟨m1, ok⟩, hy, rfl⟩ := Option.map_eq_some_iff.1 h
    unfold mLoad at hy
    cases hc : tClear empty opens m.tbl with
    | none => rw [hc] at hy; cases hy
    | some y =>
      obtain ⟨h1, h2⟩ := hclear y hc
      rw [hc] at hy
      cases hs : vocs (p ++ ".ldb_svcb".toList) with
      | none => simp only [hs] at hy; cases hy; exact ⟨fun q hq _ => h1 q hq, .inl h2⟩
      | some sv =>
        cases ht : vocs (p ++ ".ldb_tvcb".toList) with
        | none => simp only [hs, ht] at hy; cases hy; exact ⟨fun q hq _ => h1 q hq, .inl h2⟩
        | some tv =>
          simp only [hs, ht] at hy
          unfold tLoad at hy
          by_cases ho : opens (dbOf p) = true
          · rw [if_pos ho, if_pos rfl] at hy
            cases hy
            refine ⟨?_, .inr List.mem_cons_self⟩
            intro q hq hq2
            have hne : q ≠ dbOf p := fun c => hq2 (by rw [c]; exact List.mem_cons_self)
            exact (setDb_other _ _ hne).trans (h1 q hq)
          · rw [if_neg ho, if_neg (by simp)] at hy
            cases hy
            exact ⟨fun q hq _ => h1 q hq, .inr List.mem_cons_self⟩

theorem named_cons (o : Op D) (os : List (Op D)) (q : Str) : q ∈ named (o :: os) ↔ q ∈ named [o] ∨ q ∈ named os := by
  cases o <;> simp [named]

/-- **C224 (frame).** Whatever is done with an object, the databases that it never names are as before. -/
theorem C224_frame (vocs : Str → Option W) (ev : W) (disk : Str → Option D) (ops : List (Op D)) (m : Mdl D W)
    (h : mRun empty opens vocs ev ops (fresh disk ev) = some m) (q : Str) (hq : q ∉ named ops) (hq0 : q ≠ []) : m.tbl.disk q = disk q := by
  have key : ∀ (ops : List (Op D)) (m0 : Mdl D W), mRun empty opens vocs ev ops m0 = some m → q ∉ named ops → q ≠ m0.tbl.name →
      m.tbl.disk q = m0.tbl.disk q := by
    intro ops
    induction ops with
    | nil => intro m0 h _ _; cases h; rfl
    | cons o os ih =>
      intro m0 h hq hn
      obtain ⟨m1, h1, h2⟩ := Option.bind_eq_some_iff.1 h
      rw [named_cons, not_or] at hq
      obtain ⟨f1, f2⟩ := step_frame empty opens vocs ev m0 m1 o h1
      rw [ih m1 h2 hq.2 (by rcases f2 with f2 | f2
                            · rw [f2]; exact hn
                            · exact fun c => hq.1 (c ▸ f2)), f1 q hn hq.1]
  exact key ops _ h hq hq0

/-- **C224 (persistence).** After a successful first load, changes are on disk when they return: a new object that loads the same prefix sees the
result of all the changes in order. -/
theorem C224_persist (vocs : Str → Option W) (ev : W) (disk : Str → Option D) (p : Str) (fs : List (D → D)) (m1 : Mdl D W)
    (h1 : mLoad empty opens vocs (fresh disk ev) p = some (m1, true)) :
    ∃ m2 m3, mRun empty opens vocs ev (fs.map .upd) m1 = some m2 ∧ view m2 = some (fs.foldl (fun d f => f d) ((disk (p ++ "_ldb_phrdict".toList)).getD empty)) ∧
      mLoad empty opens vocs (fresh m2.tbl.disk ev) p = some (m3, true) ∧ view m3 = view m2 ∧ m3.svoc = m1.svoc ∧ m3.tvoc = m1.tvoc := by
  obtain ⟨m, ok, he, hok, hv, hd⟩ := C224_first_partial empty opens vocs ev disk p
  rw [h1] at he
  cases he
  obtain ⟨hv1, hv2, hv3, _, hopen⟩ := hv rfl
  have hname : m1.tbl.name = p ++ "_ldb_phrdict".toList := by
    have hc : tClear empty opens (fresh disk ev).tbl = some ⟨disk, [], false⟩ := rfl
    unfold mLoad at h1
    rw [hc, ← hv2, ← hv3] at h1
    change (if (tLoad empty opens ⟨disk, [], false⟩ (dbOf p)).2 then some (_, true) else some (_, false)) = _ at h1
    unfold tLoad at h1
    rw [if_pos (show opens (dbOf p) = true from (hok.1 rfl).2.2), if_pos rfl] at h1
    injection h1 with h1
    injection h1 with h1
    rw [← h1]
    rfl
  have key : ∀ (fs : List (D → D)) (m0 : Mdl D W) (x : D), m0.tbl.isOpen = true → view m0 = some x → m0.tbl.name = p ++ "_ldb_phrdict".toList →
      ∃ m2, mRun empty opens vocs ev (fs.map .upd) m0 = some m2 ∧ view m2 = some (fs.foldl (fun d f => f d) x) ∧ m2.tbl.name = p ++ "_ldb_phrdict".toList := by
    intro fs
    induction fs with
    | nil => intro m0 x _ hx hnm; exact ⟨m0, rfl, hx, hnm⟩
    | cons f fs ih =>
      intro m0 x ho hx hnm
      have hstep : mStep empty opens vocs ev m0 (.upd f) = some { m0 with tbl := { m0.tbl with disk := setDb m0.tbl.disk m0.tbl.name (f x) } } := by
        show (tUpd empty m0.tbl f).map _ = _
        unfold tUpd
        have hx' : m0.tbl.disk m0.tbl.name = some x := hx
        rw [if_pos ho, hx']; rfl
      obtain ⟨m2, hr, hv, hn⟩ := ih { m0 with tbl := { m0.tbl with disk := setDb m0.tbl.disk m0.tbl.name (f x) } } (f x) ho (setDb_same _ _ _) hnm
      refine ⟨m2, ?_, hv, hn⟩
      show (mStep empty opens vocs ev m0 (.upd f)).bind _ = _
      rw [hstep]; exact hr
  obtain ⟨m2, hr, hv, hn⟩ := key fs m1 _ hopen hv1 hname
  obtain ⟨m3, ok3, he3, hok3, hw3, _⟩ := C224_first_partial empty opens vocs ev m2.tbl.disk p
  have : ok3 = true := hok3.2 (hok.1 rfl)
  subst this
  obtain ⟨w1, w2, w3, _⟩ := hw3 rfl
  refine ⟨m2, m3, hr, hv, he3, ?_, ?_, ?_⟩
  · rw [w1, ← hn]
    change m2.tbl.disk m2.tbl.name = _ at hv
    show _ = m2.tbl.disk m2.tbl.name
    rw [hv]; rfl
  · rw [← w2] at hv2; exact (Option.some.inj hv2).symm
  · rw [← w3] at hv3; exact (Option.some.inj hv3).symm

/-- **C224 (decoder).** Clearing the translation model of the decoder empties on disk the databases of all its LevelDB models, and no
other. -/
theorem C224_clearTrans (disk : Str → Option D) (names : List Str) (hn : ∀ n ∈ names, n ≠ [] ∧ opens n = true) :
    ∃ disk', clearTrans empty opens disk names = some disk' ∧ ∀ q, disk' q = if q ∈ names then some empty else disk q := by
  induction names generalizing disk with
  | nil => exact ⟨disk, rfl, fun q => by simp⟩
  | cons n ns ih =>
    obtain ⟨d', h1, h2⟩ := ih (setDb disk n empty) (fun x hx => hn x (List.mem_cons_of_mem _ hx))
    refine ⟨d', ?_, ?_⟩
    · show (tClear empty opens ⟨disk, n, true⟩).bind _ = _
      unfold tClear
      rw [if_neg (hn n List.mem_cons_self).1, if_pos (hn n List.mem_cons_self).2]
      exact h1
    · intro q
      rw [h2 q]
      by_cases hq : q ∈ ns
      · rw [if_pos hq, if_pos (List.mem_cons_of_mem _ hq)]
      · rw [if_neg hq]
        by_cases hqn : q = n
        · rw [if_pos (by rw [hqn]; exact List.mem_cons_self), hqn]; exact setDb_same _ _ _
        · rw [if_neg (by simp [hq, hqn])]; exact setDb_other _ _ hqn

/-- The tool starts from an empty database, whatever was there. -/
theorem C224_init (x : Tbl D) (p : Str) (hp : p ≠ []) (ho : opens p = true) :
    ∃ y, tInit empty opens x p = some (y, true) ∧ y.name = p ∧ y.isOpen = true ∧ ∀ q, y.disk q = if q = p then some empty else x.disk q := by
  unfold tInit tLoad
  rw [if_pos ho, if_pos rfl]
  show ∃ y, Option.map _ (tClear empty opens ⟨_, p, true⟩) = _ ∧ _
  unfold tClear
  rw [if_neg hp, if_pos ho]
  refine ⟨_, rfl, rfl, rfl, ?_⟩
  intro q
  show (if q = p then some empty else (if q = p then _ else x.disk q)) = _
  by_cases hq : q = p
  · rw [if_pos hq, if_pos hq]
  · rw [if_neg hq, if_neg hq, if_neg hq]

end

/-- False of the code: loading the same model twice leaves an empty database. -/
theorem C224_counterexample : ¬ C224_full := by
  intro h
  have h1 := h Nat Unit 0 (fun _ => true) (fun _ => some ()) () (fun q => if q = "_ldb_phrdict".toList then some 7 else none) [.load [], .load []] _
    "_ldb_phrdict".toList 7 (by intro o ho f c; subst c; simp at ho) rfl (by decide)
  exact absurd h1 (by decide)

/-- The same with a single `clear`, and when the second model cannot be loaded. -/
theorem C224_counterexamples : ∃ (disk : Str → Option Nat) (vocs : Str → Option Unit) (q : Str) (x : Nat) (m1 m2 : Mdl Nat Unit), disk q = some x ∧ x ≠ 0 ∧
    mRun 0 (fun _ => true) vocs () [.load [], .clear] (fresh disk ()) = some m1 ∧ m1.tbl.disk q = some 0 ∧
    mRun 0 (fun _ => true) vocs () [.load [], .load ['a']] (fresh disk ()) = some m2 ∧ m2.tbl.disk q = some 0 ∧ vocs ("a.ldb_svcb".toList) = none :=
  ⟨fun q => if q = "_ldb_phrdict".toList then some 7 else none, fun q => if q = "a.ldb_svcb".toList then none else some (), "_ldb_phrdict".toList, 7, _, _,
    by decide, by decide, rfl, by decide, rfl, by decide, by decide⟩

/-- Hypotheses of the theorems are met. -/
example : ∃ m, mLoad 0 (fun _ => true) (fun _ => some ()) (fresh (fun q => if q = "_ldb_phrdict".toList then some 7 else none) ()) [] = some (m, true) ∧ view m = some 7 ∧
    m.tbl.name ≠ [] := ⟨_, rfl, by decide, by decide⟩

end Thot.LdbStore
