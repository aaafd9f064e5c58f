import Verif.LdbStore.Model
import Verif.Vocab.Props
import Verif.Desc.Props
import Verif.Dict.Props

/-!
C225: the database that `thot_ttable_to_leveldb` writes has the counts of the translation table.
-/
namespace Thot.LdbStore
open Thot.Awk (Str fields)
open Thot.Desc (fld nf linesOf)
open Thot.Vocab (showNat)

/-! ### Specification -/

/-- A line `source ||| target ||| x c`: the fields of the phrases are `s` and `t`, and the joint count is the text `c`. -/
def EntryLine (l : Str) (s t : List Str) (x c : Str) : Prop :=
  fields ' ' l = s ++ "|||".toList :: (t ++ ["|||".toList, x, c]) ∧ "|||".toList ∉ s ∧ "|||".toList ∉ t

/-- The entries of the lines of a table of word indices; lines that have not that form are skipped. -/
inductive IdEntries : List Str → List (List Nat × List Nat × Str) → Prop
  | nil : IdEntries [] []
  | entry {l s t x c ls es} (h : fields ' ' l = s.map showNat ++ "|||".toList :: (t.map showNat ++ ["|||".toList, x, c])) (r : IdEntries ls es) :
      IdEntries (l :: ls) ((s, t, c) :: es)
  | skip {l ls es} (h : ∀ s t x c, ¬ EntryLine l s t x c) (r : IdEntries ls es) : IdEntries (l :: ls) es

/-- Sums of the counts of the entries with a source phrase, a target phrase, or both. -/
def sumSrc (num : Str → Rat) (es : List (List Nat × List Nat × Str)) (s : List Nat) : Rat := ((es.filter fun e => e.1 = s).map fun e => num e.2.2).sum
def sumTrg (num : Str → Rat) (es : List (List Nat × List Nat × Str)) (t : List Nat) : Rat := ((es.filter fun e => e.2.1 = t).map fun e => num e.2.2).sum
def sumPair (num : Str → Rat) (es : List (List Nat × List Nat × Str)) (s t : List Nat) : Rat :=
  ((es.filter fun e => e.1 = s ∧ e.2.1 = t).map fun e => num e.2.2).sum

/-- Phrases of indices below 254^3 other than the reserved 2. -/
def PhrOk (v : List Nat) : Prop := ∀ w ∈ v, w < 254 ^ 3 ∧ w ≠ 2

/-- The full property. -/
def C225_full : Prop := ∀ (num : Str → Rat) (ls : List Str) (es : List (List Nat × List Nat × Str)), (∀ l ∈ ls, ∀ c ∈ l, c ≠ '\n' ∧ c ≠ '\x00') →
  IdEntries ls es → (∀ e ∈ es, PhrOk e.1 ∧ PhrOk e.2.1 ∧ e.2.1 ≠ []) → (∀ e ∈ es, 0 < num e.2.2) →
  ∃ db, tool num (ls.flatMap fun l => l ++ ['\n']) = some db ∧ ∀ s t, PhrOk s → PhrOk t → t ≠ [] →
    LevelDb.cSrc db s = sumSrc num es s ∧ LevelDb.cTrg db t = sumTrg num es t ∧ LevelDb.cSrcTrg db s t = sumPair num es s t

/-! ### Lines -/

theorem extractT_iff (l : Str) (s t : List Str) (c : Str) : extractT l = some (s, t, c) ↔ ∃ x, EntryLine l s t x c := by
  obtain ⟨a, ha1, ha2, ha3⟩ := Dict.takeTo_spec l (nf l + 1) 0 (by omega)
  rw [Nat.zero_add] at ha1
  rw [List.drop_zero] at ha3
  have hnf := Desc.nf_eq l
  unfold extractT EntryLine
  change _ ↔ ∃ x, fields ' ' l = s ++ Dict.bars :: (t ++ [Dict.bars, x, c]) ∧ Dict.bars ∉ s ∧ Dict.bars ∉ t
  simp only [ha1]
  by_cases h1 : 1 + a.length = nf l
  · rw [if_pos h1]
    constructor
    · intro h; cases h
    · rintro ⟨x, h, hs, ht⟩
      rcases ha3 with ha3 | ⟨r, ha3⟩
      · rw [ha3] at hnf; omega
      · rw [ha3] at h
        have := Dict.bars_split h ha2 hs
        rw [ha3, this.2] at hnf
        simp at hnf
        omega
  · rw [if_neg h1]
    obtain ⟨b, hb1, hb2, hb3⟩ := Dict.takeTo_spec l (nf l + 1) (1 + a.length) (by omega)
    simp only [hb1]
    by_cases h2 : 1 + a.length + 1 + b.length + 2 = nf l
    · rw [if_neg (by omega)]
      rcases ha3 with ha3 | ⟨r, ha3⟩
      · rw [ha3] at hnf; omega
      have hr : (fields ' ' l).drop (1 + a.length) = r := by
        rw [ha3, Nat.add_comm, List.drop_length_add_append]
        rfl
      rw [hr] at hb3
      have hrl : nf l = a.length + 1 + r.length := by rw [hnf, ha3]; simp; omega
      rcases hb3 with hb3 | ⟨r', hb3⟩
      · rw [hb3] at hrl; omega
      have hr1 : r'.length = 2 := by rw [hb3] at hrl; simp at hrl; omega
      obtain ⟨x, y, rfl⟩ := List.length_eq_two.1 hr1
      have hf : fields ' ' l = a ++ Dict.bars :: (b ++ [Dict.bars, x, y]) := by rw [ha3, hb3]
      have hy : fld l (nf l) = y := by
        have e : nf l = (a.length + b.length + 3) + 1 := by omega
        rw [e, Desc.fld_eq, hf]
        have : a ++ Dict.bars :: (b ++ [Dict.bars, x, y]) = (a ++ Dict.bars :: (b ++ [Dict.bars, x])) ++ [y] := by simp
        rw [this, List.getElem?_append_right (by simp; omega)]
        simp
        rw [show a.length + b.length + 3 - (a.length + (b.length + 2 + 1)) = 0 by omega]
        rfl
      rw [hy]
      constructor
      · intro h
        simp only [Option.some.injEq, Prod.mk.injEq] at h
        obtain ⟨rfl, rfl, rfl⟩ := h
        exact ⟨x, hf, ha2, hb2⟩
      · rintro ⟨x', h, hs, ht⟩
        rw [hf] at h
        obtain ⟨e1, e2⟩ := Dict.bars_split h ha2 hs
        obtain ⟨e3, e4⟩ := Dict.bars_split e2 hb2 ht
        simp only [List.cons.injEq, and_true] at e4
        rw [e1, e3, e4.2]
    · rw [if_pos h2]
      constructor
      · intro h; cases h
      · rintro ⟨x', h, hs, ht⟩
        exfalso
        rcases ha3 with ha3 | ⟨r, ha3⟩
        · apply ha2
          rw [← ha3, h]; simp
        · rw [ha3] at h
          obtain ⟨e1, e2⟩ := Dict.bars_split h ha2 hs
          have hr : (fields ' ' l).drop (1 + a.length) = r := by
            rw [ha3, Nat.add_comm, List.drop_length_add_append]
            rfl
          rw [hr, e2] at hb3
          rcases hb3 with hb3 | ⟨r', hb3⟩
          · apply hb2; rw [← hb3]; simp
          · obtain ⟨e3, e4⟩ := Dict.bars_split hb3 ht hb2
            apply h2
            rw [hnf, ha3, e2, ← e3]
            simp
            omega

theorem showNat_bars (v : List Nat) : "|||".toList ∉ v.map showNat := by
  intro h
  obtain ⟨n, _, hn⟩ := List.mem_map.1 h
  obtain ⟨m, hm⟩ := Vocab.showNat_digits n '|' (by rw [hn]; decide)
  unfold Vocab.digit at hm
  have : ∀ k : Fin 10, '|' ≠ Char.ofNat (48 + k.val) := by decide
  exact this ⟨m % 10, Nat.mod_lt _ (by decide)⟩ hm

theorem toPhrase_show (v : List Nat) (h : ∀ w ∈ v, w < 2 ^ 31) : toPhrase (v.map showNat) = some v := by
  induction v with
  | nil => rfl
  | cons w v ih =>
    have hw := h w List.mem_cons_self
    rw [List.map_cons, toPhrase, ih (fun x hx => h x (List.mem_cons_of_mem _ hx))]
    unfold toIdx
    rw [Vocab.atoi_showNat w hw]
    have : Vocab.toWordIndex (w : Int) = w := by unfold Vocab.toWordIndex; omega
    rw [Option.map_some, this]

theorem phr_lt {v : List Nat} (h : PhrOk v) : ∀ w ∈ v, w < 2 ^ 31 := by
  intro w hw
  have := (h w hw).1
  omega

/-- **C225 (lines).** The tool adds, in order, the entries of the table, and skips the lines that are not of the form of an entry. -/
theorem C225_lines {D : Type} (num : Str → Rat) (incr : D → List Nat → List Nat → Rat → D) (ls : List Str) (es : List (List Nat × List Nat × Str))
    (he : IdEntries ls es) (hw : ∀ e ∈ es, (∀ w ∈ e.1, w < 2 ^ 31) ∧ ∀ w ∈ e.2.1, w < 2 ^ 31) (db : D) :
    toolLoop num incr ls db = some (es.foldl (fun d e => incr d e.1 e.2.1 (num e.2.2)) db) := by
  induction he generalizing db with
  | nil => rfl
  | @entry l s t x c ls es h r ih =>
    have h1 : extractT l = some (s.map showNat, t.map showNat, c) :=
      (extractT_iff _ _ _ _).2 ⟨x, h, showNat_bars s, showNat_bars t⟩
    have h2 : entryOf num l = some (some (s, t, num c)) := by
      unfold entryOf
      rw [h1, Option.map_some]
      simp only [toPhrase_show s (hw _ List.mem_cons_self).1, toPhrase_show t (hw _ List.mem_cons_self).2]
    rw [toolLoop, h2]
    exact ih (fun e he => hw e (List.mem_cons_of_mem _ he)) _
  | @skip l ls es h r ih =>
    have h1 : extractT l = none := by
      cases hx : extractT l with
      | none => rfl
      | some e =>
        obtain ⟨x, hx⟩ := (extractT_iff l e.1 e.2.1 e.2.2).1 hx
        exact absurd hx (h _ _ _ _)
    rw [toolLoop]
    unfold entryOf
    rw [h1]
    exact ih hw db

/-! ### Counts -/

theorem ok_of {v : List Nat} (h : PhrOk v) : LevelDb.Ok v := by
  refine ⟨?_, fun c => (h _ c).2 rfl⟩
  intro w hw
  have := (h w hw).1
  exact ⟨this, by omega⟩

theorem sum_filter_cons {α : Type} (p : α → Bool) (f : α → Rat) (a : α) (l : List α) :
    (((a :: l).filter p).map f).sum = (if p a then f a else 0) + ((l.filter p).map f).sum := by
  rw [List.filter_cons]
  split
  · rw [List.map_cons, List.sum_cons]
  · grind

/-- Adding entries with integer counts adds these to the counts of the database. -/
theorem counts_foldl (num : Str → Rat) (es : List (List Nat × List Nat × Str)) (ho : ∀ e ∈ es, PhrOk e.1 ∧ PhrOk e.2.1 ∧ e.2.1 ≠ [])
    (hi : ∀ e ∈ es, ∃ n : Int, num e.2.2 = n) (s t : List Nat) (hs : PhrOk s) (ht : PhrOk t) (hn : t ≠ []) :
    ∀ (db : LevelDb.Db), 
    LevelDb.cSrc (es.foldl (fun d e => LevelDb.incrCountsOfEntry d e.1 e.2.1 (num e.2.2)) db) s = LevelDb.cSrc db s + sumSrc num es s ∧
    LevelDb.cTrg (es.foldl (fun d e => LevelDb.incrCountsOfEntry d e.1 e.2.1 (num e.2.2)) db) t = LevelDb.cTrg db t + sumTrg num es t ∧
    LevelDb.cSrcTrg (es.foldl (fun d e => LevelDb.incrCountsOfEntry d e.1 e.2.1 (num e.2.2)) db) s t = LevelDb.cSrcTrg db s t + sumPair num es s t := by
  induction es with
  | nil => intro db; simp [sumSrc, sumTrg, sumPair, Rat.add_zero]
  | cons e es ih =>
    intro db
    obtain ⟨h1, h2, h3⟩ := ho e List.mem_cons_self
    obtain ⟨n, hnum⟩ := hi e List.mem_cons_self
    obtain ⟨i1, i2, i3⟩ := ih (fun x hx => ho x (List.mem_cons_of_mem _ hx)) (fun x hx => hi x (List.mem_cons_of_mem _ hx))
      (LevelDb.incrCountsOfEntry db e.1 e.2.1 (num e.2.2))
    have hc := LevelDb.C29_counts db e.1 e.2.1 s t (ok_of h1) (ok_of h2) h3 (ok_of hs) (ok_of ht) hn 0 0 (num e.2.2)
    obtain ⟨_, _, _, c1, c2, c3, _⟩ := hc
    have hrs : (LevelDb.roundHalfAway (LevelDb.cSrc db e.1 + num e.2.2) : Rat) = LevelDb.cSrc db e.1 + num e.2.2 := by
      unfold LevelDb.cSrc LevelDb.getInfo
      rw [hnum, ← Rat.intCast_add, LevelDb.round_int]
    have hrt : (LevelDb.roundHalfAway (LevelDb.cTrg db e.2.1 + num e.2.2) : Rat) = LevelDb.cTrg db e.2.1 + num e.2.2 := by
      unfold LevelDb.cTrg LevelDb.getInfo
      rw [hnum, ← Rat.intCast_add, LevelDb.round_int]
    have hrp : (LevelDb.roundHalfAway (LevelDb.cSrcTrg db e.1 e.2.1 + num e.2.2) : Rat) = LevelDb.cSrcTrg db e.1 e.2.1 + num e.2.2 := by
      unfold LevelDb.cSrcTrg LevelDb.getInfo
      rw [hnum, ← Rat.intCast_add, LevelDb.round_int]
    rw [List.foldl_cons, i1, i2, i3, c1, c2, c3, hrs, hrt, hrp]
    unfold sumSrc sumTrg sumPair
    rw [sum_filter_cons, sum_filter_cons, sum_filter_cons]
    refine ⟨?_, ?_, ?_⟩
    · by_cases h : s = e.1
      · subst h; rw [if_pos rfl, if_pos (by simp)]; grind
      · rw [if_neg h, if_neg (by simpa using fun c => h c.symm)]; grind
    · by_cases h : t = e.2.1
      · subst h; rw [if_pos rfl, if_pos (by simp)]; grind
      · rw [if_neg h, if_neg (by simpa using fun c => h c.symm)]; grind
    · by_cases h : s = e.1 ∧ t = e.2.1
      · obtain ⟨rfl, rfl⟩ := h; rw [if_pos ⟨rfl, rfl⟩, if_pos (by simp)]; grind
      · rw [if_neg h, if_neg (by simpa using fun c c' => h ⟨c.symm, c'.symm⟩)]; grind

/-- **C225, what holds**: tables with integer counts. The counts of the database are the sums over the entries of the table, the
scan of a target phrase gives exactly the source phrases with nonzero sums, and skipped lines have no effect. -/
theorem C225_counts_partial (num : Str → Rat) (ls : List Str) (es : List (List Nat × List Nat × Str)) (hl : ∀ l ∈ ls, ∀ c ∈ l, c ≠ '\n' ∧ c ≠ '\x00')
    (he : IdEntries ls es) (ho : ∀ e ∈ es, PhrOk e.1 ∧ PhrOk e.2.1 ∧ e.2.1 ≠ []) (hi : ∀ e ∈ es, ∃ n : Int, num e.2.2 = n) :
    ∃ db, tool num (ls.flatMap fun l => l ++ ['\n']) = some db ∧
    (∀ s t, PhrOk s → PhrOk t → t ≠ [] →
      LevelDb.cSrc db s = sumSrc num es s ∧ LevelDb.cTrg db t = sumTrg num es t ∧ LevelDb.cSrcTrg db s t = sumPair num es s t) ∧
    (∀ t, PhrOk t → t ≠ [] → ∃ r b, LevelDb.getEntriesForTarget db t = some (r, b) ∧ (r.map Prod.fst).Nodup ∧
      ∀ s x y, PhrOk s → ((s, (x, y)) ∈ r ↔ x = sumSrc num es s ∧ y = sumPair num es s t ∧ x ≠ 0 ∧ y ≠ 0)) := by
  have hf := C225_lines num LevelDb.incrCountsOfEntry ls es he (fun e h => ⟨phr_lt (ho e h).1, phr_lt (ho e h).2.1⟩) []
  refine ⟨_, by unfold tool; rw [Desc.linesOf_text ls hl]; exact hf, ?_, ?_⟩
  · intro s t hs ht hn
    obtain ⟨h1, h2, h3⟩ := counts_foldl num es ho hi s t hs ht hn []
    have z : ∀ v, (LevelDb.getInfo [] v).1 = 0 := fun v => rfl
    unfold LevelDb.cSrc at h1
    unfold LevelDb.cTrg at h2
    unfold LevelDb.cSrcTrg at h3
    rw [z, Rat.zero_add] at h1 h2 h3
    exact ⟨h1, h2, h3⟩
  · intro t ht hn
    have hrun : es.foldl (fun d e => LevelDb.incrCountsOfEntry d e.1 e.2.1 (num e.2.2)) [] = LevelDb.run (es.map fun e => .incr e.1 e.2.1 (num e.2.2)) := by
      unfold LevelDb.run
      rw [List.foldl_map]; rfl
    rw [hrun]
    obtain ⟨r, b, h1, h2, h3, _⟩ := LevelDb.C29 (es.map fun e => .incr e.1 e.2.1 (num e.2.2)) (by
      intro o hom
      obtain ⟨e, hem, rfl⟩ := List.mem_map.1 hom
      exact ⟨ok_of (ho e hem).1, ok_of (ho e hem).2.1, (ho e hem).2.2⟩) t (ok_of ht) hn
    refine ⟨r, b, h1, h3, ?_⟩
    intro s x y hs
    rw [h2, ← hrun]
    obtain ⟨g1, _, g3⟩ := counts_foldl num es ho hi s t hs ht hn []
    have z : ∀ v, (LevelDb.getInfo [] v).1 = 0 := fun v => rfl
    have z1 : LevelDb.cSrc [] s = 0 := z _
    have z3 : LevelDb.cSrcTrg [] s t = 0 := z _
    rw [z1, Rat.zero_add] at g1
    rw [z3, Rat.zero_add] at g3
    rw [g1, g3]
    exact ⟨fun h => h.2, fun h => ⟨ok_of hs, h⟩⟩

/-- A line of the table, with the numbers given as text. -/
def sampleLine : Str := "5 ||| 6 ||| 1 0.4".toList

theorem sample_fields : fields ' ' sampleLine = ([5] : List Nat).map showNat ++ "|||".toList :: (([6] : List Nat).map showNat ++ ["|||".toList, "1".toList, "0.4".toList]) := by
  have h1 : showNat 5 = ['5'] := by unfold showNat; rfl
  have h2 : showNat 6 = ['6'] := by unfold showNat; rfl
  rw [List.map_cons, List.map_cons, h1, h2]
  decide +kernel

/-- False of the code: counts are rounded at each addition, and three times 0.4 gives 0. -/
theorem C225_counterexample : ¬ C225_full := by
  intro h
  obtain ⟨db, h1, h2⟩ := h (fun _ => 2 / 5) [sampleLine, sampleLine, sampleLine] [([5], [6], "0.4".toList), ([5], [6], "0.4".toList), ([5], [6], "0.4".toList)]
    (by decide) (.entry sample_fields (.entry sample_fields (.entry sample_fields .nil)))
    (by unfold PhrOk; decide) (by intro e _; show (0 : Rat) < 2 / 5; decide +kernel)
  have hd := (h2 [5] [6] (by unfold PhrOk; decide) (by unfold PhrOk; decide) (by simp)).1
  have ht : tool (fun _ => 2 / 5) ([sampleLine, sampleLine, sampleLine].flatMap fun l => l ++ ['\n']) =
      some ([([5], [6], "0.4".toList), ([5], [6], "0.4".toList), ([5], [6], "0.4".toList)].foldl (fun d e => LevelDb.incrCountsOfEntry d e.1 e.2.1 (2 / 5)) []) := by
    unfold tool
    rw [Desc.linesOf_text _ (by decide)]
    exact C225_lines (fun _ => 2 / 5) LevelDb.incrCountsOfEntry _ _ (.entry sample_fields (.entry sample_fields (.entry sample_fields .nil))) (by decide) []
  rw [ht] at h1
  injection h1 with h1
  rw [← h1] at hd
  exact absurd hd (by decide +kernel)

/-- The hypotheses are met by a table with an entry and a line that is skipped. -/
example : IdEntries [sampleLine, "7 |||".toList] [([5], [6], "0.4".toList)] ∧ sumPair (fun _ => 3) [([5], [6], "0.4".toList)] [5] [6] = 3 := by
  refine ⟨.entry sample_fields (.skip ?_ .nil), by decide +kernel⟩
  intro s t x c h
  have := (extractT_iff _ s t c).2 ⟨x, h⟩
  rw [show extractT "7 |||".toList = none by decide +kernel] at this
  cases this

end Thot.LdbStore
