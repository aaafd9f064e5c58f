import Verif.PhrTools.Table
import Verif.PhrTools.MergeProps
/-!
C239 (flipping a table) and C240 (sorting a table).
-/
namespace Thot.PhrTools

open Thot
open Thot.SentHandler (joinWords Word fields_join)
open Thot.Awk (fields)
open Thot.Vocab (showNat digit)

/-! ### Flipping -/

theorem scan_cons (i : Nat) (ct : Bool) (w : Str) {l : List Str} (hl : l ≠ []) :
    scan i ct (w :: l) = if w ≠ sep then
      if ct then (w :: (scan (i + 1) ct l).1, (scan (i + 1) ct l).2)
      else ((scan (i + 1) ct l).1, w :: (scan (i + 1) ct l).2.1, (scan (i + 1) ct l).2.2)
    else if ct then scan (i + 1) false l
    else ([], [], some (i + 1)) := by
  cases l with
  | nil => exact absurd rfl hl
  | cons v r => rw [scan]

theorem scan_second : ∀ (b : List Str), (∀ w ∈ b, w ≠ sep) → ∀ (r : List Str), r ≠ [] → ∀ i,
    scan i false (b ++ sep :: r) = ([], b, some (i + b.length + 1)) := by
  intro b
  induction b with
  | nil =>
    intro _ r hr i
    rw [List.nil_append, scan_cons i false sep hr, if_neg (fun h => h rfl)]
    rfl
  | cons w b ih =>
    intro hb r hr i
    rw [List.cons_append, scan_cons i false w (by simp), if_pos (hb w List.mem_cons_self), ih (fun x hx => hb x (List.mem_cons_of_mem _ hx)) r hr]
    simp only [List.length_cons]
    rw [show i + 1 + b.length + 1 = i + (b.length + 1) + 1 by omega]
    rfl

theorem scan_words : ∀ (a b : List Str), (∀ w ∈ a, w ≠ sep) → (∀ w ∈ b, w ≠ sep) → ∀ (r : List Str), r ≠ [] → ∀ i,
    scan i true (a ++ sep :: b ++ sep :: r) = (a, b, some (i + a.length + 1 + b.length + 1)) := by
  intro a
  induction a with
  | nil =>
    intro b _ hb r hr i
    rw [List.nil_append, List.cons_append, scan_cons i true sep (by simp), if_neg (fun h => h rfl), if_pos rfl, scan_second b hb r hr]
    rfl
  | cons w a ih =>
    intro b ha hb r hr i
    rw [List.cons_append, List.cons_append, scan_cons i true w (by simp), if_pos (ha w List.mem_cons_self), if_pos rfl,
      ih b (fun x hx => ha x (List.mem_cons_of_mem _ hx)) hb r hr]
    simp only [List.length_cons]
    rw [show i + 1 + a.length + 1 + b.length + 1 = i + (a.length + 1) + 1 + b.length + 1 by omega]

theorem flat_join : ∀ (l : List Str), l ≠ [] → (l.flatMap fun w => ' ' :: w) = ' ' :: joinWords l := by
  intro l
  induction l with
  | nil => intro h; exact absurd rfl h
  | cons w l ih =>
    intro _
    cases l with
    | nil => simp [joinWords]
    | cons v l =>
      rw [List.flatMap_cons, ih (by simp)]
      rfl

/-- A line of a table: two phrases and some more words. -/
structure Row where
  fst : List Str
  snd : List Str
  more : List Str

/-- The line of a row. -/
def rowLine (x : Row) : Str := joinWords (x.fst ++ ["|||".toList] ++ x.snd ++ ["|||".toList] ++ x.more)

/-- The row with the phrases exchanged. -/
def Row.swap (x : Row) : Row := { x with fst := x.snd, snd := x.fst }

structure Row.Ok (x : Row) : Prop where
  fst : Phrase x.fst
  snd : Phrase x.snd
  more : x.more ≠ [] ∧ ∀ w ∈ x.more, Word w

theorem row_words {x : Row} (h : x.Ok) : fields ' ' (rowLine x) = x.fst ++ sep :: x.snd ++ sep :: x.more := by
  have : rowLine x = joinWords (x.fst ++ sep :: x.snd ++ sep :: x.more) := by
    unfold rowLine; congr 1; simp [sep]
  rw [this, fields_join]
  intro w hw
  rw [List.append_assoc, List.mem_append, List.cons_append, List.mem_cons, List.mem_append, List.mem_cons] at hw
  rcases hw with hw | rfl | hw | rfl | hw
  · exact (h.fst.2 w hw).1
  · exact word_sep
  · exact (h.snd.2 w hw).1
  · exact word_sep
  · exact h.more.2 w hw

theorem row_flip (last : Nat) {x : Row} (h : x.Ok) : (flipLine last (rowLine x)).2 = rowLine x.swap := by
  unfold flipLine
  have hw := row_words h
  rw [hw, scan_words x.fst x.snd (fun w hw => (h.fst.2 w hw).2) (fun w hw => (h.snd.2 w hw).2) x.more h.more.1 1]
  simp only [Option.getD_some]
  have hidx : (List.range' (1 + x.fst.length + 1 + x.snd.length + 1) ((x.fst ++ sep :: x.snd ++ sep :: x.more).length + 1 - (1 + x.fst.length + 1 + x.snd.length + 1))).map
      (fun i => dollarOf (rowLine x) i) = x.more := by
    apply List.ext_getElem
    · simp; omega
    · intro k h1 h2
      simp only [List.getElem_map, List.getElem_range']
      unfold dollarOf
      rw [if_neg (by omega), hw, List.getD_eq_getElem?_getD]
      have e : x.fst ++ sep :: x.snd ++ sep :: x.more = (x.fst ++ sep :: x.snd ++ [sep]) ++ x.more := by simp
      rw [e, List.getElem?_append_right (by simp; omega)]
      rw [show 1 + x.fst.length + 1 + x.snd.length + 1 + 1 * k - 1 - (x.fst ++ sep :: x.snd ++ [sep]).length = k by simp; omega,
        List.getElem?_eq_getElem h2]
      rfl
  have hflat : ((List.range' (1 + x.fst.length + 1 + x.snd.length + 1) ((x.fst ++ sep :: x.snd ++ sep :: x.more).length + 1 - (1 + x.fst.length + 1 + x.snd.length + 1))).flatMap
      fun i => ' ' :: dollarOf (rowLine x) i) = ' ' :: joinWords x.more := by
    rw [← flat_join _ h.more.1]
    conv => rhs; rw [← hidx]
    rw [List.flatMap_map]
  rw [hflat, flat_join _ h.fst.1]
  unfold rowLine Row.swap
  simp only
  rw [join_append (x.snd ++ ["|||".toList] ++ x.fst ++ ["|||".toList]) x.more (by simp) h.more.1,
    join_append (x.snd ++ ["|||".toList] ++ x.fst) ["|||".toList] (by simp) (by simp),
    join_append (x.snd ++ ["|||".toList]) x.fst (by simp) h.fst.1, join_append x.snd ["|||".toList] h.snd.1 (by simp)]
  simp [joinWords]

theorem flip_rows : ∀ (t : List Row), (∀ x ∈ t, x.Ok) → ∀ last, flipFile last (t.map rowLine) = t.map fun x => rowLine x.swap := by
  intro t
  induction t with
  | nil => intro _ _; rfl
  | cons x t ih =>
    intro h last
    rw [List.map_cons]
    show (flipLine last (rowLine x)).2 :: flipFile (flipLine last (rowLine x)).1 (t.map rowLine) = _
    rw [row_flip last (h x List.mem_cons_self), ih fun y hy => h y (List.mem_cons_of_mem _ hy)]
    rfl

/-- Flipping a table exchanges the two phrases of every line and keeps the rest of the line, whatever it is, and the order; flipping twice
gives the table back. -/
theorem C239_flip (t : List Row) (h : ∀ x ∈ t, x.Ok) :
    flipFile 0 (t.map rowLine) = t.map (fun x => rowLine ⟨x.snd, x.fst, x.more⟩) ∧
    flipFile 0 (flipFile 0 (t.map rowLine)) = t.map rowLine := by
  refine ⟨flip_rows t h 0, ?_⟩
  rw [flip_rows t h 0]
  have e : (t.map fun x => rowLine x.swap) = (t.map Row.swap).map rowLine := by rw [List.map_map]; rfl
  rw [e, flip_rows _ (by
    intro y hy
    obtain ⟨x, hx, rfl⟩ := List.mem_map.1 hy
    exact ⟨(h x hx).snd, (h x hx).fst, (h x hx).more⟩) 0, List.map_map]
  rfl

/-- Non-vacuity. -/
example : Row.Ok ⟨[['a'], ['b']], [['c']], [['1'], ['2']]⟩ ∧
    flipFile 0 ["a b ||| c ||| 1 2".toList, "a ||| d e ||| 1 1".toList] = ["c ||| a b ||| 1 2".toList, "d e ||| a ||| 1 1".toList] := by
  constructor
  · refine ⟨⟨by simp, ?_⟩, exPhrase 'c' (by decide), by simp, ?_⟩
    · intro w hw
      simp only [List.mem_cons, List.not_mem_nil, or_false] at hw
      rcases hw with rfl | rfl
      · exact ⟨⟨by decide, by decide⟩, by decide⟩
      · exact ⟨⟨by decide, by decide⟩, by decide⟩
    · intro w hw
      simp only [List.mem_cons, List.not_mem_nil, or_false] at hw
      rcases hw with rfl | rfl
      · exact ⟨by decide, by decide⟩
      · exact ⟨by decide, by decide⟩
  · decide +kernel

/-! ### Sorting -/

/-- An entry of a table. -/
structure EntryOk (e : Entry) : Prop where
  src : Phrase e.src
  trg : Phrase e.trg
  cs : Word e.cs
  cst : Word e.cst

theorem EntryOk.row {e : Entry} (h : EntryOk e) : Row.Ok ⟨e.src, e.trg, [e.cs, e.cst]⟩ := by
  refine ⟨h.src, h.trg, by simp, ?_⟩
  intro w hw
  simp only [List.mem_cons, List.not_mem_nil, or_false] at hw
  rcases hw with rfl | rfl
  · exact h.cs
  · exact h.cst

theorem entryLine_row (e : Entry) : entryLine e = rowLine ⟨e.src, e.trg, [e.cs, e.cst]⟩ := by
  unfold entryLine rowLine
  congr 1
  simp [sep]

theorem word_d3 (n : Nat) : Word (d3 n) := by
  obtain ⟨h1, h2⟩ := AligFile.word_showNat n
  refine ⟨?_, ?_⟩
  · unfold d3
    intro h
    exact h1 (List.append_eq_nil_iff.1 h).2
  · intro c hc
    unfold d3 at hc
    rcases List.mem_append.1 hc with hc | hc
    · rw [(List.mem_replicate.1 hc).2]; decide
    · exact h2 c hc

theorem pad_digits : ∀ (k n : Nat), ∀ c ∈ pad k n, ∃ m, c = digit m := by
  intro k
  induction k with
  | zero => intro n c hc; cases hc
  | succ k ih =>
    intro n c hc
    rcases List.mem_cons.1 hc with rfl | hc
    · exact ⟨_, rfl⟩
    · exact ih _ c hc

theorem word_fix20 (x : Rat) : Word (fix20 x) := by
  refine ⟨by unfold fix20; simp, ?_⟩
  intro c hc
  unfold fix20 at hc
  rcases List.mem_append.1 hc with hc | hc
  · exact (AligFile.word_showNat _).2 c hc
  · rcases List.mem_cons.1 hc with rfl | hc
    · decide
    · obtain ⟨m, rfl⟩ := pad_digits _ _ c hc
      exact ⟨(Vocab.digit_dig m).2.2.1, (Vocab.digit_dig m).2.2.2.1, (Vocab.digit_dig m).2.2.2.2.1⟩

section
variable (num : Str → Rat)

/-- The words of the line with lengths. -/
def putWords (e : Entry) : List Str :=
  d3 e.src.length :: e.src ++ sep :: fix20 (1 / num e.cst) :: d3 e.trg.length :: e.trg ++ [sep, e.cs, e.cst]

theorem putWords_ok {e : Entry} (h : EntryOk e) : ∀ w ∈ putWords num e, Word w := by
  intro w hw
  unfold putWords at hw
  simp only [List.cons_append, List.append_assoc, List.mem_cons, List.mem_append, List.not_mem_nil, or_false] at hw
  rcases hw with rfl | hw | rfl | rfl | rfl | hw | rfl | rfl | rfl
  · exact word_d3 _
  · exact (h.src.2 w hw).1
  · exact word_sep
  · exact word_fix20 _
  · exact word_d3 _
  · exact (h.trg.2 w hw).1
  · exact word_sep
  · exact h.cs
  · exact h.cst

theorem put_entry {e : Entry} (h : EntryOk e) (hc : num e.cst ≠ 0) : putLine num (entryLine e) = some (joinWords (putWords num e)) := by
  unfold putLine
  rw [entryLine_row, row_words h.row]
  simp only
  rw [scan_words e.src e.trg (fun w hw => (h.src.2 w hw).2) (fun w hw => (h.trg.2 w hw).2) [e.cs, e.cst] (by simp) 1]
  have hend : fromEnd (e.src ++ sep :: e.trg ++ sep :: [e.cs, e.cst]) 0 = e.cst ∧ fromEnd (e.src ++ sep :: e.trg ++ sep :: [e.cs, e.cst]) 1 = e.cs := by
    have : ∀ (l : List Str) (a b c : Str), fromEnd (l ++ [a, b, c]) 0 = c ∧ fromEnd (l ++ [a, b, c]) 1 = b := by
      intro l a b c
      refine ⟨?_, fromEnd_two l a b c⟩
      unfold fromEnd
      simp only [List.length_append, List.length_cons, List.length_nil]
      rw [show l.length + (0 + 1 + 1 + 1) - 1 - 0 = l.length + 2 by omega]
      simp [List.getD_eq_getElem?_getD]
    exact this _ _ _ _
  rw [hend.1, hend.2, if_neg hc]
  congr 1
  unfold putWords
  rw [show d3 e.src.length :: e.src ++ sep :: fix20 (1 / num e.cst) :: d3 e.trg.length :: e.trg ++ [sep, e.cs, e.cst] =
    [d3 e.src.length] ++ (e.src ++ ([sep, fix20 (1 / num e.cst), d3 e.trg.length] ++ (e.trg ++ [sep, e.cs, e.cst]))) by simp,
    join_append [d3 e.src.length] _ (by simp) (by simp), join_append e.src _ h.src.1 (by simp),
    join_append [sep, fix20 (1 / num e.cst), d3 e.trg.length] _ (by simp) (by simp), join_append e.trg _ h.trg.1 (by simp)]
  simp [joinWords, sep]

theorem rmRest_eq : ∀ l : List Str, rmRest l = joinWords l := by
  intro l
  induction l with
  | nil => rfl
  | cons w l ih =>
    cases l with
    | nil => rfl
    | cons v l =>
      show w ++ ' ' :: rmRest (v :: l) = w ++ ' ' :: joinWords (v :: l)
      rw [ih]

theorem rm_src (a b : Str) (r : List Str) (hr : r ≠ []) : ∀ (s : List Str), (∀ w ∈ s, w ≠ sep) → rmLoop (s ++ sep :: a :: b :: r) = joinWords (s ++ sep :: r) := by
  intro s
  induction s with
  | nil =>
    intro _
    show (if sep = sep then "||| ".toList ++ rmRest ((a :: b :: r).drop 2) else _) = _
    rw [if_pos rfl, List.drop_succ_cons, List.drop_succ_cons, List.drop_zero, rmRest_eq, List.nil_append, show sep :: r = [sep] ++ r from rfl, join_append [sep] r (by simp) hr]
    rfl
  | cons w s ih =>
    intro hs
    show (if w = sep then _ else if s ++ sep :: a :: b :: r = [] then w else w ++ ' ' :: rmLoop (s ++ sep :: a :: b :: r)) = _
    rw [if_neg (hs w List.mem_cons_self), if_neg (by simp), ih fun x hx => hs x (List.mem_cons_of_mem _ hx)]
    rw [show w :: s ++ sep :: r = [w] ++ (s ++ sep :: r) from rfl, join_append [w] _ (by simp) (by simp)]
    rfl

theorem rm_put {e : Entry} (h : EntryOk e) : rmLine (joinWords (putWords num e)) = entryLine e := by
  unfold rmLine
  rw [fields_join (putWords_ok num h)]
  unfold putWords
  rw [List.cons_append, List.cons_append, List.tail_cons, List.append_assoc, List.cons_append, List.cons_append, List.cons_append,
    rm_src _ _ _ (by simp) e.src fun w hw => (h.src.2 w hw).2]
  unfold entryLine
  congr 1
  simp

theorem putFile_eq : ∀ (t : List Entry), (∀ e ∈ t, EntryOk e ∧ num e.cst ≠ 0) →
    putFile num (t.map entryLine) = some (t.map fun e => joinWords (putWords num e)) := by
  intro t
  induction t with
  | nil => intro _; rfl
  | cons e t ih =>
    intro h
    have h1 := put_entry num (h e List.mem_cons_self).1 (h e List.mem_cons_self).2
    have h2 := ih fun x hx => h x (List.mem_cons_of_mem _ hx)
    unfold putFile at h2 ⊢
    rw [List.map_cons, List.mapM_cons, h1, h2]
    rfl

/-! ### The order of the counts -/

theorem leText_prefix (p x y : Str) : leText (p ++ x) (p ++ y) = leText x y := by
  induction p with
  | nil => rfl
  | cons c p ih =>
    rw [List.cons_append, List.cons_append, leText, if_neg (show ¬ c < c from fun h => UInt32.lt_irrefl _ h), if_pos rfl, ih]

theorem digit_lt (a b : Nat) (h : digit a < digit b) : a % 10 < b % 10 := by
  have h' : (digit a).toNat < (digit b).toNat := h
  have h1 := (Vocab.digit_dig a).2.1
  have h2 := (Vocab.digit_dig b).2.1
  have h3 := (Vocab.digit_dig a).1
  have h4 := (Vocab.digit_dig b).1
  simp only [Vocab.isDig, Bool.and_eq_true, decide_eq_true_eq] at h3 h4
  omega

theorem digit_eq (a b : Nat) (h : digit a = digit b) : a % 10 = b % 10 := by
  rw [← (Vocab.digit_dig a).2.1, ← (Vocab.digit_dig b).2.1, h]

theorem pad_le : ∀ (k a b : Nat) (x y : Str), a < 10 ^ k → b < 10 ^ k → leText (pad k a ++ x) (pad k b ++ y) = true → a ≤ b := by
  intro k
  induction k with
  | zero => intro a b x y ha hb _; rw [Nat.pow_zero] at ha hb; omega
  | succ k ih =>
    intro a b x y ha hb h
    have hp : 0 < 10 ^ k := Nat.pow_pos (by omega)
    rw [Nat.pow_succ] at ha hb
    have hda : a / 10 ^ k < 10 := (Nat.div_lt_iff_lt_mul hp).2 (by rw [Nat.mul_comm]; exact ha)
    have hdb : b / 10 ^ k < 10 := (Nat.div_lt_iff_lt_mul hp).2 (by rw [Nat.mul_comm]; exact hb)
    have hma := Nat.div_add_mod a (10 ^ k)
    have hmb := Nat.div_add_mod b (10 ^ k)
    have hra := Nat.mod_lt a hp
    have hrb := Nat.mod_lt b hp
    rw [pad, pad, List.cons_append, List.cons_append, leText] at h
    by_cases h1 : digit (a / 10 ^ k) < digit (b / 10 ^ k)
    · have := digit_lt _ _ h1
      rw [Nat.mod_eq_of_lt hda, Nat.mod_eq_of_lt hdb] at this
      have h2 : 10 ^ k * (a / 10 ^ k + 1) ≤ 10 ^ k * (b / 10 ^ k) := Nat.mul_le_mul_left _ this
      rw [Nat.mul_add, Nat.mul_one] at h2
      omega
    · rw [if_neg h1] at h
      by_cases h2 : digit (a / 10 ^ k) = digit (b / 10 ^ k)
      · rw [if_pos h2] at h
        have h3 := digit_eq _ _ h2
        rw [Nat.mod_eq_of_lt hda, Nat.mod_eq_of_lt hdb] at h3
        have h4 := ih _ _ x y hra hrb h
        rw [h3] at hma
        omega
      · rw [if_neg h2] at h; cases h

theorem fix_le {x y : Rat} (p q : Str) (hx : units x < 10 ^ 21) (hy : units y < 10 ^ 21) (h : leText (fix20 x ++ p) (fix20 y ++ q) = true) : units x ≤ units y := by
  unfold fix20 at h
  have hp : (0 : Nat) < 10 ^ 20 := Nat.pow_pos (by omega)
  have hdx : units x / 10 ^ 20 < 10 := (Nat.div_lt_iff_lt_mul hp).2 (by rw [Nat.pow_succ] at hx; omega)
  have hdy : units y / 10 ^ 20 < 10 := (Nat.div_lt_iff_lt_mul hp).2 (by rw [Nat.pow_succ] at hy; omega)
  have hma := Nat.div_add_mod (units x) (10 ^ 20)
  have hmb := Nat.div_add_mod (units y) (10 ^ 20)
  have hra := Nat.mod_lt (units x) hp
  have hrb := Nat.mod_lt (units y) hp
  have hs : ∀ n, n < 10 → showNat n = [digit n] := by intro n hn; rw [Vocab.showNat, if_pos hn]
  rw [hs _ hdx, hs _ hdy] at h
  generalize units x / 10 ^ 20 = dx at *
  generalize units y / 10 ^ 20 = dy at *
  generalize units x % 10 ^ 20 = rx at *
  generalize units y % 10 ^ 20 = ry at *
  simp only [List.cons_append, List.nil_append] at h
  rw [leText] at h
  by_cases h1 : digit dx < digit dy
  · have := digit_lt _ _ h1
    rw [Nat.mod_eq_of_lt hdx, Nat.mod_eq_of_lt hdy] at this
    have h2 : 10 ^ 20 * (dx + 1) ≤ 10 ^ 20 * dy := Nat.mul_le_mul_left _ this
    rw [Nat.mul_add, Nat.mul_one] at h2
    omega
  · rw [if_neg h1] at h
    by_cases h2 : digit dx = digit dy
    · rw [if_pos h2] at h
      have h3 := digit_eq _ _ h2
      rw [Nat.mod_eq_of_lt hdx, Nat.mod_eq_of_lt hdy] at h3
      rw [leText, if_neg (show ¬ '.' < '.' by decide), if_pos rfl] at h
      have h4 := pad_le 20 rx ry p q hra hrb h
      rw [h3] at hma
      omega
    · rw [if_neg h2] at h; cases h

theorem units_floor {x : Rat} (hx : 0 ≤ x) : ((units x : Nat) : Int) = (x * 10 ^ 20 + 1 / 2).floor := by
  unfold units
  have h0 : (0 : Rat) ≤ x * 10 ^ 20 + 1 / 2 := by
    have := Rat.mul_nonneg hx (show (0 : Rat) ≤ 10 ^ 20 by decide +kernel)
    grind
  have : (0 : Int) ≤ (x * 10 ^ 20 + 1 / 2).floor := Rat.le_floor_iff.2 (by simpa using h0)
  omega

theorem units_lt {x : Rat} (hx : 0 ≤ x) (h : x ≤ 9) : units x < 10 ^ 21 := by
  have h1 := units_floor hx
  have h2 : (x * 10 ^ 20 + 1 / 2).floor < ((10 ^ 21 : Nat) : Int) := by
    rw [Rat.floor_lt_iff]
    have h3 : x * 10 ^ 20 ≤ 9 * 10 ^ 20 := Rat.mul_le_mul_of_nonneg_right h (by decide +kernel)
    have h4 : (9 : Rat) * 10 ^ 20 + 1 / 2 < (((10 ^ 21 : Nat) : Int) : Rat) := by decide +kernel
    grind
  omega

theorem units_le {x y : Rat} (hx : 0 ≤ x) (hy : 0 ≤ y) (h : units x ≤ units y) : x * 10 ^ 20 < y * 10 ^ 20 + 1 := by
  have h1 := units_floor hx
  have h2 := units_floor hy
  have h3 : (x * 10 ^ 20 + 1 / 2).floor ≤ (y * 10 ^ 20 + 1 / 2).floor := by omega
  have h4 := Rat.lt_floor_add_one (x * 10 ^ 20 + 1 / 2)
  have h5 := Rat.floor_le (y * 10 ^ 20 + 1 / 2)
  have h6 : (((x * 10 ^ 20 + 1 / 2).floor : Int) : Rat) ≤ (((y * 10 ^ 20 + 1 / 2).floor : Int) : Rat) := Rat.intCast_le_intCast.2 h3
  have h7 : (((x * 10 ^ 20 + 1 / 2).floor + 1 : Int) : Rat) = (((x * 10 ^ 20 + 1 / 2).floor : Int) : Rat) + 1 := by simp
  rw [h7] at h4
  grind

/-! ### Sorted tables -/

/-- In the table the lines with the same first phrase are consecutive. -/
def Grouped (t : List Entry) : Prop := ∀ (i j k : Nat) (a b c : Entry), t[i]? = some a → t[j]? = some b → t[k]? = some c → i ≤ j → j ≤ k → a.src = c.src → b.src = a.src

/-- Among the lines with the same first phrase, those with larger counts come first (up to differences of the inverse of the count that
20 decimals do not show). -/
def ByCount (t : List Entry) : Prop := t.Pairwise fun a b => a.src = b.src → 1 / num a.cst < 1 / num b.cst + 1 / 10 ^ 20

theorem sublist_three {A : Type} {l : List A} {i j k : Nat} {a b c : A} (ha : l[i]? = some a) (hb : l[j]? = some b) (hc : l[k]? = some c)
    (h1 : i < j) (h2 : j < k) : [a, b, c].Sublist l := by
  obtain ⟨hi, rfl⟩ := List.getElem?_eq_some_iff.1 ha
  obtain ⟨hj, rfl⟩ := List.getElem?_eq_some_iff.1 hb
  obtain ⟨hk, rfl⟩ := List.getElem?_eq_some_iff.1 hc
  refine (?_ : [l[i], l[j], l[k]].Sublist (l.take (i + 1) ++ l.drop (i + 1))).trans (by rw [List.take_append_drop]; exact List.Sublist.refl _)
  show ([l[i]] ++ [l[j], l[k]]).Sublist _
  apply List.Sublist.append
  · apply List.singleton_sublist.2
    rw [List.mem_take_iff_getElem]
    exact ⟨i, by omega, rfl⟩
  · have e2 : l.drop (i + 1) = (l.drop (i + 1)).take (j - i) ++ l.drop (j + 1) := by
      have : (l.drop (i + 1)).drop (j - i) = l.drop (j + 1) := by rw [List.drop_drop]; congr 1; omega
      rw [← this, List.take_append_drop]
    rw [e2]
    show ([l[j]] ++ [l[k]]).Sublist _
    apply List.Sublist.append
    · apply List.singleton_sublist.2
      rw [List.mem_take_iff_getElem]
      refine ⟨j - i - 1, by simp; omega, ?_⟩
      simp only [List.getElem_drop]
      congr 1; omega
    · apply List.singleton_sublist.2
      rw [List.mem_drop_iff_getElem]
      exact ⟨k - (j + 1), by omega, by congr 1; omega⟩

theorem contig_grouped {t : List Entry} (h : Contig (fun e : Entry => e.src) t) : Grouped t := by
  intro i j k a b c ha hb hc hij hjk he
  rcases Nat.lt_or_eq_of_le hij with h1 | rfl
  · rcases Nat.lt_or_eq_of_le hjk with h2 | rfl
    · exact h a b c (sublist_three ha hb hc h1 h2) he
    · rw [hb] at hc; injection hc with hc; rw [hc]; exact he.symm
  · rw [ha] at hb; injection hb with hb; rw [hb]

theorem put_contig {t : List Entry} (hok : ∀ e ∈ t, EntryOk e) (hs : (t.map fun e => joinWords (putWords num e)).Pairwise fun x y => leText x y = true) :
    Contig (fun e : Entry => e.src) t := by
  intro a b c hsub hk
  have hp := (List.pairwise_map.1 hs).sublist hsub
  have hab := (List.pairwise_cons.1 hp).1 b (by simp)
  have hbc := (List.pairwise_cons.1 (List.pairwise_cons.1 hp).2).1 c (by simp)
  have ha := hok a (hsub.subset (by simp))
  have hb := hok b (hsub.subset (by simp))
  have hpre : ∀ e : Entry, (joinWords (d3 e.src.length :: e.src ++ [sep]) ++ [' ']) <+: joinWords (putWords num e) := by
    intro e
    refine ⟨joinWords (fix20 (1 / num e.cst) :: d3 e.trg.length :: e.trg ++ [sep, e.cs, e.cst]), ?_⟩
    have : putWords num e = (d3 e.src.length :: e.src ++ [sep]) ++ (fix20 (1 / num e.cst) :: d3 e.trg.length :: e.trg ++ [sep, e.cs, e.cst]) := by
      unfold putWords; simp
    rw [this, join_append (d3 e.src.length :: e.src ++ [sep]) (fix20 (1 / num e.cst) :: d3 e.trg.length :: e.trg ++ [sep, e.cs, e.cst]) (by simp) (by simp), List.append_assoc]
    rfl
  have h1 := hpre a
  have h2 := hpre c
  simp only at hk
  rw [← hk] at h2
  obtain ⟨r, hr⟩ := prefix_between h1 h2 hab hbc
  have hf := fields_join (putWords_ok num hb)
  rw [← hr, List.append_assoc] at hf
  have hw : ∀ u ∈ d3 a.src.length :: a.src ++ [sep], Word u := by
    intro u hu
    rw [List.cons_append, List.mem_cons, List.mem_append, List.mem_singleton] at hu
    rcases hu with rfl | hu | rfl
    · exact word_d3 _
    · exact (ha.src.2 u hu).1
    · exact word_sep
  have h3 := fields_prefix _ hw (by simp) r
  have h4 := h3.symm.trans hf
  unfold putWords at h4
  rw [List.cons_append, List.cons_append, List.cons_append, List.cons_append, List.append_assoc, List.append_assoc] at h4
  injection h4 with _ h4
  exact (sep_unique (fun w hw => (hb.src.2 w hw).2) (fun w hw => (ha.src.2 w hw).2) h4.symm).1

theorem one_div_le9 {c : Rat} (hc : 1 / 9 ≤ c) : 0 ≤ 1 / c ∧ 1 / c ≤ 9 := by
  have hpos : (0 : Rat) < c := by grind
  constructor
  · exact Rat.le_of_lt (by rw [Rat.div_def, Rat.one_mul]; exact Rat.inv_pos.2 hpos)
  · apply Rat.not_lt.1
    intro h
    have h1 := Rat.mul_lt_mul_of_pos_right h hpos
    have h2 : 1 / c * c = 1 := by grind
    rw [h2] at h1
    grind

theorem put_bycount {t : List Entry} (hok : ∀ e ∈ t, EntryOk e ∧ 1 / 9 ≤ num e.cst)
    (hs : (t.map fun e => joinWords (putWords num e)).Pairwise fun x y => leText x y = true) : ByCount num t := by
  have hp := List.pairwise_map.1 hs
  unfold ByCount
  refine hp.imp_of_mem ?_
  intro a b ha hb hle he
  have hoa := (hok a ha).1
  have hob := (hok b hb).1
  obtain ⟨a0, a9⟩ := one_div_le9 (hok a ha).2
  obtain ⟨b0, b9⟩ := one_div_le9 (hok b hb).2
  have hsplit : ∀ e : Entry, joinWords (putWords num e) = (joinWords (d3 e.src.length :: e.src ++ [sep]) ++ [' ']) ++
      (fix20 (1 / num e.cst) ++ ' ' :: joinWords (d3 e.trg.length :: e.trg ++ [sep, e.cs, e.cst])) := by
    intro e
    have : putWords num e = (d3 e.src.length :: e.src ++ [sep]) ++ ([fix20 (1 / num e.cst)] ++ (d3 e.trg.length :: e.trg ++ [sep, e.cs, e.cst])) := by
      unfold putWords; simp
    rw [this, join_append (d3 e.src.length :: e.src ++ [sep]) _ (by simp) (by simp),
      join_append [fix20 (1 / num e.cst)] (d3 e.trg.length :: e.trg ++ [sep, e.cs, e.cst]) (by simp) (by simp), List.append_assoc]
    rfl
  rw [hsplit a, hsplit b, he, leText_prefix] at hle
  have h1 := fix_le _ _ (units_lt a0 a9) (units_lt b0 b9) hle
  have h2 := units_le a0 b0 h1
  have h3 : (1 / num b.cst + 1 / 10 ^ 20) * 10 ^ 20 = 1 / num b.cst * 10 ^ 20 + 1 := by
    rw [Rat.add_mul]; congr 1; decide +kernel
  rw [← h3] at h2
  exact Rat.lt_of_mul_lt_mul_right h2 (by decide +kernel)

/-- Natural counts below `10 ^ 10` are in decreasing order. -/
theorem bycount_nat {m n : Nat} (hm0 : 0 < m) (hn : 0 < n) (hm : m < 10 ^ 10) (h : 1 / (m : Rat) < 1 / (n : Rat) + 1 / 10 ^ 20) : n ≤ m := by
  apply Decidable.byContradiction
  intro hc
  have hlt : m + 1 ≤ n := by omega
  have hmq : (0 : Rat) < (m : Rat) := by exact_mod_cast hm0
  have hnq : (0 : Rat) < (n : Rat) := by exact_mod_cast hn
  have h1 : 1 / (m : Rat) * ((m : Rat) * n) < (1 / (n : Rat) + 1 / 10 ^ 20) * ((m : Rat) * n) := Rat.mul_lt_mul_of_pos_right h (Rat.mul_pos hmq hnq)
  have h2 : 1 / (m : Rat) * ((m : Rat) * n) = n := by grind
  have h3 : (1 / (n : Rat) + 1 / 10 ^ 20) * ((m : Rat) * n) = m + (m : Rat) * n / 10 ^ 20 := by grind
  rw [h2, h3] at h1
  -- n < m + m n / 10^20
  have h4 : (n : Rat) * 10 ^ 20 < (m : Rat) * 10 ^ 20 + (m : Rat) * n := by grind
  have h5 : n * 10 ^ 20 < m * 10 ^ 20 + m * n := by exact_mod_cast h4
  obtain ⟨d, rfl⟩ : ∃ d, n = m + 1 + d := ⟨n - (m + 1), by omega⟩
  have h6 : m * (m + 1 + d) ≤ (10 ^ 10 - 1) * (m + 1 + d) := Nat.mul_le_mul_right _ (by omega)
  omega

/-- Sorting a table: whatever order `sort` gives to equal lines, the result has the lines of the table, those with the same first phrase are
consecutive and, if the counts of the pairs are at least 1/9, in decreasing order of count. Missing: smaller counts
(`C240_counterexample`). -/
theorem C240_sort_partial (t : List Entry) (hok : ∀ e ∈ t, EntryOk e) (hc : ∀ e ∈ t, 1 / 9 ≤ num e.cst) :
    ∃ lines, putFile num (t.map entryLine) = some lines ∧ ∀ sorted, IsSort sorted lines →
      ∃ t', t'.Perm t ∧ rmFile sorted = t'.map entryLine ∧ Grouped t' ∧ ByCount num t' ∧
        ((∀ e ∈ t, ∃ n : Nat, n < 10 ^ 10 ∧ num e.cst = n) → t'.Pairwise fun a b => a.src = b.src → num b.cst ≤ num a.cst) := by
  have hne : ∀ e ∈ t, num e.cst ≠ 0 := by
    intro e he h0
    have := hc e he
    rw [h0] at this
    revert this; decide +kernel
  refine ⟨_, putFile_eq num t fun e he => ⟨hok e he, hne e he⟩, ?_⟩
  rintro sorted ⟨hperm, hord⟩
  obtain ⟨t', ht', rfl⟩ := perm_map_lift (fun e => joinWords (putWords num e)) hperm
  have hok' : ∀ e ∈ t', EntryOk e := fun e he => hok e (ht'.mem_iff.1 he)
  have hby := put_bycount num (fun e he => ⟨hok' e he, hc e (ht'.mem_iff.1 he)⟩) hord
  refine ⟨t', ht', ?_, contig_grouped (put_contig num hok' hord), hby, ?_⟩
  · unfold rmFile
    rw [List.map_map]
    apply List.map_congr_left
    intro e he
    exact rm_put num (hok' e he)
  · intro hnat
    refine List.Pairwise.imp_of_mem ?_ hby
    intro a b ha hb h he
    obtain ⟨m, hm, hma⟩ := hnat a (ht'.mem_iff.1 ha)
    obtain ⟨n, hn, hnb⟩ := hnat b (ht'.mem_iff.1 hb)
    have hm0 : 0 < m := by
      apply Nat.pos_of_ne_zero
      rintro rfl
      exact hne a (ht'.mem_iff.1 ha) (by simpa using hma)
    have hn0 : 0 < n := by
      apply Nat.pos_of_ne_zero
      rintro rfl
      exact hne b (ht'.mem_iff.1 hb) (by simpa using hnb)
    have := h he
    rw [hma, hnb] at this
    rw [hma, hnb]
    exact_mod_cast bycount_nat hm0 hn0 hm this

end

/-- The full claim: any positive counts. -/
def C240_full : Prop := ∀ (num : Str → Rat) (t : List Entry), (∀ e ∈ t, EntryOk e) → (∀ e ∈ t, 0 < num e.cst) →
  ∃ lines, putFile num (t.map entryLine) = some lines ∧ ∀ sorted, IsSort sorted lines →
    ∃ t', t'.Perm t ∧ rmFile sorted = t'.map entryLine ∧ Grouped t' ∧ ByCount num t'

def smallNum (w : Str) : Rat := if w = ['p'] then 1 / 20 else 1 / 5
def small1 : Entry := ⟨[['a']], [['x']], ['c'], ['p']⟩
def small2 : Entry := ⟨[['a']], [['y']], ['c'], ['q']⟩

theorem exWord (c : Char) (h : c ≠ ' ' ∧ c ≠ '\n' ∧ c ≠ '\x00') : Word [c] := by
  refine ⟨by simp, ?_⟩
  intro d hd
  rw [List.mem_singleton] at hd
  rw [hd]; exact h

theorem small_ok : EntryOk small1 ∧ EntryOk small2 :=
  ⟨⟨exPhrase _ (by decide), exPhrase _ (by decide), exWord _ (by decide), exWord _ (by decide)⟩,
    ⟨exPhrase _ (by decide), exPhrase _ (by decide), exWord _ (by decide), exWord _ (by decide)⟩⟩

theorem showNat_20 : showNat 20 = ['2', '0'] := by
  rw [Vocab.showNat, if_neg (by decide), Vocab.showNat, if_pos (by decide)]
  decide

theorem showNat_5 : showNat 5 = ['5'] := by
  rw [Vocab.showNat, if_pos (by decide)]
  decide

/-- A pair with count 1/20 is placed before another one with count 1/5: the inverses are compared as texts. -/
theorem C240_counterexample : ¬ C240_full := by
  intro h
  obtain ⟨lines, h1, h2⟩ := h smallNum [small1, small2] (by
    intro e he
    simp only [List.mem_cons, List.not_mem_nil, or_false] at he
    rcases he with rfl | rfl
    · exact small_ok.1
    · exact small_ok.2) (by
    intro e he
    simp only [List.mem_cons, List.not_mem_nil, or_false] at he
    rcases he with rfl | rfl <;> decide +kernel)
  rw [putFile_eq smallNum [small1, small2] (by
    intro e he
    simp only [List.mem_cons, List.not_mem_nil, or_false] at he
    rcases he with rfl | rfl
    · exact ⟨small_ok.1, by decide +kernel⟩
    · exact ⟨small_ok.2, by decide +kernel⟩)] at h1
  injection h1 with h1
  subst h1
  have hu1 : units (1 / smallNum small1.cst) / 10 ^ 20 = 20 := by decide +kernel
  have hu2 : units (1 / smallNum small2.cst) / 10 ^ 20 = 5 := by decide +kernel
  have hord : leText (joinWords (putWords smallNum small1)) (joinWords (putWords smallNum small2)) = true := by
    have e1 : joinWords (putWords smallNum small1) = (d3 1 ++ " a ||| ".toList) ++ ('2' :: '0' :: '.' :: pad 20 (units (1 / smallNum small1.cst) % 10 ^ 20) ++ ' ' ::
        joinWords [d3 1, ['x'], sep, ['c'], ['p']]) := by
      unfold putWords fix20
      rw [hu1, showNat_20]
      simp [joinWords, small1, sep]
    have e2 : joinWords (putWords smallNum small2) = (d3 1 ++ " a ||| ".toList) ++ ('5' :: '.' :: pad 20 (units (1 / smallNum small2.cst) % 10 ^ 20) ++ ' ' ::
        joinWords [d3 1, ['y'], sep, ['c'], ['q']]) := by
      unfold putWords fix20
      rw [hu2, showNat_5]
      simp [joinWords, small2, sep]
    rw [e1, e2, leText_prefix]
    show (if '2' < '5' then true else _) = true
    rw [if_pos (by decide)]
  obtain ⟨t', ht', hrm, _, hby⟩ := h2 _ ⟨List.Perm.refl _, by
    rw [List.map_cons, List.map_cons, List.map_nil, List.pairwise_cons]
    exact ⟨fun y hy => by rw [List.mem_singleton] at hy; rw [hy]; exact hord, List.pairwise_singleton _ _⟩⟩
  have e : rmFile ([small1, small2].map fun e => joinWords (putWords smallNum e)) = [entryLine small1, entryLine small2] := by
    show [rmLine (joinWords (putWords smallNum small1)), rmLine (joinWords (putWords smallNum small2))] = _
    rw [rm_put smallNum small_ok.1, rm_put smallNum small_ok.2]
  rw [e] at hrm
  have hlen := ht'.length_eq
  have hne : entryLine small1 ≠ entryLine small2 := by decide
  match t', ht', hrm, hby, hlen with
  | [a, b], ht', hrm, hby, _ =>
    have ha : a ∈ [small1, small2] := ht'.mem_iff.1 (by simp)
    have hb : b ∈ [small1, small2] := ht'.mem_iff.1 (by simp)
    simp only [List.map_cons, List.map_nil, List.cons.injEq, and_true] at hrm
    simp only [List.mem_cons, List.not_mem_nil, or_false] at ha hb
    have ha' : a = small1 := by
      rcases ha with rfl | rfl
      · rfl
      · exact absurd hrm.1 hne
    have hb' : b = small2 := by
      rcases hb with rfl | rfl
      · exact absurd hrm.2.symm hne
      · rfl
    subst ha'; subst hb'
    have := (List.pairwise_cons.1 hby).1 small2 (by simp) rfl
    revert this
    decide +kernel

/-- Non-vacuity of the partial claim. -/
example : EntryOk small1 ∧ 1 / 9 ≤ smallNum ['q'] := ⟨small_ok.1, by decide +kernel⟩

end Thot.PhrTools
