import Verif.PhrTools.TableProps
/-!
C241, C242 and C243: `thot_get_nbest_for_trg`.
-/
namespace Thot.PhrTools

open Thot
open Thot.Sum (sumBy)
open Thot.SentHandler (joinWords Word fields_join)
open Thot.Awk (fields)

/-! ### Specification -/

/-- What is written for a target phrase: the entries kept, and the others. -/
structure Block where
  trg : List Str
  kept : List Entry
  dropped : List Entry

/-- The line with the remainder of a block. -/
def unusedLine (fmt : Rat → Str) (num : Str → Rat) (b : Block) : Str :=
  "<UNUSED_WORD> ||| ".toList ++ joinWords b.trg ++ " ||| 0 ".toList ++ fmt (sumBy (fun e => num e.cst) b.dropped)

/-- The lines of a block. -/
def blockLines (fmt : Rat → Str) (num : Str → Rat) (rem : Bool) (b : Block) : List Str :=
  b.kept.map entryLine ++ if rem = true ∧ 0 < sumBy (fun e => num e.cst) b.dropped then [unusedLine fmt num b] else []

/-- The blocks are the target phrases of the table, each one once, with its `n` best entries. -/
structure Best (num : Str → Rat) (n : Nat) (t : List Entry) (bs : List Block) : Prop where
  once : (bs.map Block.trg).Nodup
  all : ∀ p, p ∈ bs.map Block.trg ↔ ∃ e ∈ t, e.trg = p
  part : ∀ b ∈ bs, (b.kept ++ b.dropped).Perm (t.filter fun e => decide (e.trg = b.trg))
  size : ∀ b ∈ bs, b.kept.length = min n (t.filter fun e => decide (e.trg = b.trg)).length
  best : ∀ b ∈ bs, ∀ x ∈ b.kept, ∀ y ∈ b.dropped, 1 / num x.cst < 1 / num y.cst + 1 / 10 ^ 20

/-- No two target phrases of one word are different texts of the same number. -/
def NoNumberClash (look : Str → Option Rat) (t : List Entry) : Prop :=
  ∀ a ∈ t, ∀ b ∈ t, ∀ x y u, a.trg = [x] → b.trg = [y] → look x = some u → look y = some u → x = y

/-- The lines `thot_get_nbest_for_trg` passes to `sort`. -/
def toSort (num : Str → Rat) (t : List Entry) : Option (List Str) := putFile num (flipFile 0 (t.map entryLine))

/-! ### Proofs -/

def flipE (e : Entry) : Entry := { e with src := e.trg, trg := e.src }

theorem flipE_ok {e : Entry} (h : EntryOk e) : EntryOk (flipE e) := ⟨h.trg, h.src, h.cs, h.cst⟩

theorem entry_map (t : List Entry) : t.map entryLine = (t.map fun e => (⟨e.src, e.trg, [e.cs, e.cst]⟩ : Row)).map rowLine := by
  rw [List.map_map]
  apply List.map_congr_left
  intro e _; exact entryLine_row e

theorem flip_entries {t : List Entry} (h : ∀ e ∈ t, EntryOk e) (last : Nat) : flipFile last (t.map entryLine) = (t.map flipE).map entryLine := by
  rw [entry_map, flip_rows _ (by
    intro x hx
    obtain ⟨e, he, rfl⟩ := List.mem_map.1 hx
    exact (h e he).row), List.map_map, List.map_map]
  apply List.map_congr_left
  intro e _
  show rowLine ⟨e.trg, e.src, [e.cs, e.cst]⟩ = entryLine (flipE e)
  rw [entryLine_row]; rfl

section
variable (num : Str → Rat) (fmt : Rat → Str) (look : Str → Option Rat) (n : Nat) (p : Bool)

theorem sameKey_iff {t : List Entry} (hl : ∀ a ∈ t, ∀ b ∈ t, ∀ x y u, a.src = [x] → b.src = [y] → look x = some u → look y = some u → x = y)
    (hok : ∀ e ∈ t, EntryOk e) {a b : Entry} (ha : a ∈ t) (hb : b ∈ t) : sameKey look a.src b.src = decide (a.src = b.src) := by
  have hgen : decide (joinWords a.src = joinWords b.src) = decide (a.src = b.src) := by
    apply decide_eq_decide.2
    exact ⟨fun h => join_inj (fun u hu => ((hok a ha).src.2 u hu).1) (fun u hu => ((hok b hb).src.2 u hu).1) h, fun h => by rw [h]⟩
  unfold sameKey
  split
  · rename_i x y ea eb
    split
    · rename_i u v hu hv
      apply decide_eq_decide.2
      rw [ea, eb]
      constructor
      · intro huv
        rw [hl a ha b hb x y u ea eb hu (by rw [hv, huv])]
      · intro hxy
        injection hxy with hxy
        subst hxy
        rw [hu] at hv
        injection hv
    · apply decide_eq_decide.2
      rw [ea, eb]
      constructor
      · intro h; rw [h]
      · intro h; injection h
  · exact hgen

theorem key_entry {e : Entry} (h : EntryOk e) (old : List Str) : keyOf old (entryLine e) = e.src := by
  unfold keyOf
  rw [entryLine_row, row_words h.row, List.append_assoc, List.cons_append, (take_sep fun w hw => (h.src.2 w hw).2).1]
  simp only
  rw [if_neg h.src.1]

theorem count_entry {e : Entry} (h : EntryOk e) : fromEnd (fields ' ' (entryLine e)) 0 = e.cst := by
  rw [entryLine_row, row_words h.row]
  have : ∀ (l : List Str) (a b c : Str), fromEnd (l ++ [a, b, c]) 0 = c := by
    intro l a b c
    unfold fromEnd
    simp only [List.length_append, List.length_cons, List.length_nil]
    rw [show l.length + (0 + 1 + 1 + 1) - 1 - 0 = l.length + 2 by omega]
    simp [List.getD_eq_getElem?_getD]
  exact this _ _ _ _

theorem keepOpt_entry {e : Entry} (h : EntryOk e) (c : Nat) (rem : Rat) :
    keepOpt num n c (entryLine e) rem = if c ≤ n then ([entryLine e], rem) else ([], rem + num e.cst) := by
  unfold keepOpt
  rw [count_entry h]
  by_cases hc : c ≤ n
  · rw [if_pos (by exact_mod_cast hc), if_pos hc]
  · rw [if_neg (fun hq => hc (by exact_mod_cast hq)), if_neg hc]

/-- The lines of the groups: the remainder of the last one is not written. -/
def outRuns : List (List Str × List Entry) → List Str
  | [] => []
  | [(_, g)] => (g.take n).map entryLine
  | (k, g) :: x :: r => (g.take n).map entryLine ++ remLine fmt p k (sumBy (fun e => num e.cst) (g.drop n)) ++ outRuns (x :: r)

/-- The state after the entries of a group. -/
def nstate (k : List Str) (g : List Entry) : NState := { cnt := g.length, cur := k, strn := k, rem := sumBy (fun e => num e.cst) (g.drop n) }

/-- The lines of the rest of a group and of the following ones. -/
def outAfter (k : List Str) (g : List Entry) (tw : List Entry) (rs : List (List Str × List Entry)) : List Str :=
  (tw.take (n - g.length)).map entryLine ++ match rs with
    | [] => []
    | x :: r => remLine fmt p k (sumBy (fun e => num e.cst) ((g ++ tw).drop n)) ++ outRuns num fmt n p (x :: r)

theorem outRuns_cons (k : List Str) (g : List Entry) (rs : List (List Str × List Entry)) :
    outRuns num fmt n p ((k, g) :: rs) = (g.take n).map entryLine ++ match rs with
    | [] => []
    | x :: r => remLine fmt p k (sumBy (fun e => num e.cst) (g.drop n)) ++ outRuns num fmt n p (x :: r) := by
  cases rs with
  | nil => simp [outRuns]
  | cons x r => rw [outRuns]; simp

theorem keep_add {g : List Entry} {e : Entry} (h : EntryOk e) :
    keepOpt num n (g.length + 1) (entryLine e) (sumBy (fun e => num e.cst) (g.drop n)) =
      ((([e].take (n - g.length)).map entryLine), sumBy (fun e => num e.cst) ((g ++ [e]).drop n)) := by
  rw [keepOpt_entry num n h]
  by_cases hc : g.length + 1 ≤ n
  · rw [if_pos hc, List.take_of_length_le (by simp; omega), List.drop_eq_nil_of_le (by omega), List.drop_eq_nil_of_le (by simp; omega)]
    rfl
  · rw [if_neg hc, show n - g.length = 0 by omega, List.take_zero, List.drop_append_of_le_length (by omega), Sum.sumBy_append, Sum.sumBy_cons, Sum.sumBy_nil, Rat.add_zero]
    rfl

theorem nbLoop_runs {t : List Entry} (hl : ∀ a ∈ t, ∀ b ∈ t, ∀ x y u, a.src = [x] → b.src = [y] → look x = some u → look y = some u → x = y)
    (hok : ∀ e ∈ t, EntryOk e) : ∀ (l : List Entry) (a : Entry) (g : List Entry), a ∈ t → g ≠ [] → (∀ e ∈ l, e ∈ t) →
    nbLoop num fmt look n p (nstate num n a.src g) (l.map entryLine) =
      outAfter num fmt n p a.src g (l.takeWhile fun e => decide (e.src = a.src)) (runs (fun e : Entry => e.src) (l.dropWhile fun e => decide (e.src = a.src))) := by
  intro l
  induction l with
  | nil =>
    intro a g _ _ _
    unfold outAfter
    simp [nbLoop, runs]
  | cons e l ih =>
    intro a g ha hg hlt
    have he := hlt e List.mem_cons_self
    have hle := fun x hx => hlt x (List.mem_cons_of_mem e hx)
    have hcnt : (nstate num n a.src g).cnt ≠ 0 := fun h => hg (List.length_eq_zero_iff.1 h)
    rw [List.map_cons]
    rw [nbLoop, if_neg hcnt, key_entry (hok e he)]
    show (if sameKey look a.src e.src = true then _ else _) = _
    rw [sameKey_iff look hl hok ha he]
    by_cases hk : e.src = a.src
    · rw [if_pos (by simpa using hk.symm), List.takeWhile_cons_of_pos (by simpa using hk), List.dropWhile_cons_of_pos (by simpa using hk)]
      show (keepOpt num n (g.length + 1) (entryLine e) (sumBy (fun e => num e.cst) (g.drop n))).1 ++ nbLoop num fmt look n p
        { cnt := g.length + 1, cur := a.src, strn := e.src, rem := (keepOpt num n (g.length + 1) (entryLine e) (sumBy (fun e => num e.cst) (g.drop n))).2 } (l.map entryLine) = _
      rw [keep_add num n (hok e he), hk]
      have hst : ({ cnt := g.length + 1, cur := a.src, strn := a.src, rem := sumBy (fun e => num e.cst) ((g ++ [e]).drop n) } : NState) = nstate num n a.src (g ++ [e]) := by
        unfold nstate; simp
      simp only
      rw [hst, ih a (g ++ [e]) ha (by simp) hle]
      unfold outAfter
      rw [← List.append_assoc, ← List.map_append]
      congr 1
      · congr 1
        rw [List.length_append, List.length_singleton]
        rcases Nat.lt_or_ge g.length n with h | h
        · rw [show n - g.length = (n - (g.length + 1)) + 1 by omega]; simp
        · rw [show n - g.length = 0 by omega, show n - (g.length + 1) = 0 by omega]; simp
      · simp
    · rw [if_neg (by simpa using fun h : a.src = e.src => hk h.symm), List.takeWhile_cons_of_neg (by simpa using hk), List.dropWhile_cons_of_neg (by simpa using hk)]
      have hr : runs (fun e : Entry => e.src) (e :: l) = (e.src, e :: l.takeWhile fun b => decide (b.src = e.src)) ::
        runs (fun e : Entry => e.src) (l.dropWhile fun b => decide (b.src = e.src)) := by rw [runs]
      have h0 := keep_add num n (g := []) (hok e he)
      simp only [List.length_nil, Nat.zero_add, List.drop_nil, Sum.sumBy_nil, Nat.sub_zero, List.nil_append] at h0
      show remLine fmt p a.src (sumBy (fun e => num e.cst) (g.drop n)) ++ (keepOpt num n 1 (entryLine e) 0).1 ++ nbLoop num fmt look n p
        { cnt := 1, cur := e.src, strn := e.src, rem := (keepOpt num n 1 (entryLine e) 0).2 } (l.map entryLine) = _
      rw [h0]
      have hst : ({ cnt := 1, cur := e.src, strn := e.src, rem := sumBy (fun e => num e.cst) ([e].drop n) } : NState) = nstate num n e.src [e] := rfl
      simp only
      rw [hst, ih e [e] he (by simp) hle, hr]
      unfold outAfter
      simp only [List.take_nil, List.map_nil, List.nil_append, List.append_nil]
      rw [outRuns_cons, List.append_assoc]
      congr 1
      rw [← List.append_assoc, ← List.map_append]
      congr 1
      congr 1
      cases n with
      | zero => simp
      | succ m => simp

theorem nb_runs {t : List Entry} (hl : ∀ a ∈ t, ∀ b ∈ t, ∀ x y u, a.src = [x] → b.src = [y] → look x = some u → look y = some u → x = y)
    (hok : ∀ e ∈ t, EntryOk e) : nbLoop num fmt look n p { cnt := 0, cur := [], strn := [], rem := 0 } (t.map entryLine) =
      outRuns num fmt n p (runs (fun e : Entry => e.src) t) := by
  cases t with
  | nil => simp [nbLoop, runs, outRuns]
  | cons e l =>
    have he := hok e List.mem_cons_self
    rw [List.map_cons, nbLoop, if_pos rfl, key_entry he]
    have h0 := keep_add num n (g := []) he
    simp only [List.length_nil, Nat.zero_add, List.drop_nil, Sum.sumBy_nil, Nat.sub_zero, List.nil_append] at h0
    show (keepOpt num n 1 (entryLine e) 0).1 ++ nbLoop num fmt look n p
        { cnt := 1, cur := e.src, strn := e.src, rem := (keepOpt num n 1 (entryLine e) 0).2 } (l.map entryLine) = _
    rw [h0]
    have hst : ({ cnt := 1, cur := e.src, strn := e.src, rem := sumBy (fun e => num e.cst) ([e].drop n) } : NState) = nstate num n e.src [e] := rfl
    simp only
    rw [hst, nbLoop_runs num fmt look n p hl hok l e [e] List.mem_cons_self (by simp) fun x hx => List.mem_cons_of_mem _ hx]
    have hr : runs (fun e : Entry => e.src) (e :: l) = (e.src, e :: l.takeWhile fun b => decide (b.src = e.src)) ::
        runs (fun e : Entry => e.src) (l.dropWhile fun b => decide (b.src = e.src)) := by rw [runs]
    rw [hr, outRuns_cons]
    unfold outAfter
    rw [← List.append_assoc, ← List.map_append]
    congr 1
    congr 1
    cases n with
    | zero => simp
    | succ m => simp

/-! ### Flipping the result -/

/-- The rows of the result before the last flip. -/
def rowsRuns : List (List Str × List Entry) → List Row
  | [] => []
  | [(_, g)] => (g.take n).map fun e => ⟨e.src, e.trg, [e.cs, e.cst]⟩
  | (k, g) :: x :: r => ((g.take n).map fun e => (⟨e.src, e.trg, [e.cs, e.cst]⟩ : Row)) ++
    (if p = true ∧ sumBy (fun e => num e.cst) (g.drop n) > 0 then [(⟨k, ["<UNUSED_WORD>".toList], [['0'], fmt (sumBy (fun e => num e.cst) (g.drop n))]⟩ : Row)] else []) ++ rowsRuns (x :: r)

theorem outRuns_rows : ∀ rs, (∀ x ∈ rs, Phrase x.1) → outRuns num fmt n p rs = (rowsRuns num fmt n p rs).map rowLine := by
  intro rs
  induction rs with
  | nil => intro _; rfl
  | cons x rs ih =>
    intro h
    obtain ⟨k, g⟩ := x
    have hk : Phrase k := h (k, g) List.mem_cons_self
    have hm : ((g.take n).map fun e => (⟨e.src, e.trg, [e.cs, e.cst]⟩ : Row)).map rowLine = (g.take n).map entryLine := (entry_map _).symm
    cases rs with
    | nil => rw [outRuns, rowsRuns, hm]
    | cons y r =>
      rw [outRuns, rowsRuns, List.map_append, List.map_append, hm, ih fun z hz => h z (List.mem_cons_of_mem _ hz)]
      congr 2
      unfold remLine
      by_cases hc : p = true ∧ sumBy (fun e => num e.cst) (g.drop n) > 0
      · rw [if_pos hc, if_pos hc, List.map_singleton]
        congr 1
        unfold rowLine
        simp only
        rw [show k ++ ["|||".toList] ++ ["<UNUSED_WORD>".toList] ++ ["|||".toList] ++ [['0'], fmt (sumBy (fun e => num e.cst) (g.drop n))] =
          k ++ ["|||".toList, "<UNUSED_WORD>".toList, "|||".toList, ['0'], fmt (sumBy (fun e => num e.cst) (g.drop n))] by simp, join_append k _ hk.1 (by simp)]
        simp [joinWords]
      · rw [if_neg hc, if_neg hc]; rfl

theorem rowsRuns_ok (hfmt : ∀ x, Word (fmt x)) : ∀ rs, (∀ x ∈ rs, Phrase x.1 ∧ ∀ e ∈ x.2, EntryOk e) → ∀ x ∈ rowsRuns num fmt n p rs, x.Ok := by
  intro rs
  induction rs with
  | nil => intro _ x hx; cases hx
  | cons y rs ih =>
    intro h x hx
    obtain ⟨k, g⟩ := y
    obtain ⟨hk, hg⟩ := h (k, g) List.mem_cons_self
    have hkept : ∀ x ∈ ((g.take n).map fun e => (⟨e.src, e.trg, [e.cs, e.cst]⟩ : Row)), x.Ok := by
      intro x hx
      obtain ⟨e, he, rfl⟩ := List.mem_map.1 hx
      exact (hg e (List.mem_of_mem_take he)).row
    cases rs with
    | nil => exact hkept x hx
    | cons z r =>
      rw [rowsRuns, List.mem_append, List.mem_append] at hx
      rcases hx with (hx | hx) | hx
      · exact hkept x hx
      · split at hx
        · rw [List.mem_singleton] at hx
          subst hx
          refine ⟨hk, ⟨by simp, ?_⟩, by simp, ?_⟩
          · intro w hw
            rw [List.mem_singleton] at hw
            subst hw
            exact ⟨⟨by decide, by decide⟩, by decide⟩
          · intro w hw
            simp only [List.mem_cons, List.not_mem_nil, or_false] at hw
            rcases hw with rfl | rfl
            · exact ⟨by decide, by decide⟩
            · exact hfmt _
        · cases hx
      · exact ih (fun w hw => h w (List.mem_cons_of_mem _ hw)) x hx

/-- The lines of the blocks: with `-p`, the remainder of a block is written before the next block. -/
def printBlocks : List Block → List Str
  | [] => []
  | [b] => blockLines fmt num false b
  | b :: x :: r => blockLines fmt num p b ++ printBlocks (x :: r)

/-- The block of a group. -/
def blockOf (x : List Str × List Entry) : Block := { trg := x.1, kept := (x.2.take n).map flipE, dropped := (x.2.drop n).map flipE }

theorem swap_rows : ∀ rs, (∀ x ∈ rs, Phrase x.1) →
    (rowsRuns num fmt n p rs).map (fun x => rowLine x.swap) = printBlocks num fmt p (rs.map (blockOf n)) := by
  intro rs
  induction rs with
  | nil => intro _; rfl
  | cons x rs ih =>
    intro h
    obtain ⟨k, g⟩ := x
    have hk : Phrase k := h (k, g) List.mem_cons_self
    have hm : ((g.take n).map fun e => (⟨e.src, e.trg, [e.cs, e.cst]⟩ : Row)).map (fun x => rowLine x.swap) = ((g.take n).map flipE).map entryLine := by
      rw [List.map_map, List.map_map]
      apply List.map_congr_left
      intro e _
      show rowLine ⟨e.trg, e.src, [e.cs, e.cst]⟩ = entryLine (flipE e)
      rw [entryLine_row]; rfl
    have hsum : sumBy (fun e => num e.cst) ((g.drop n).map flipE) = sumBy (fun e => num e.cst) (g.drop n) := by
      rw [Sum.sumBy_map]; rfl
    cases rs with
    | nil =>
      rw [rowsRuns, hm]
      show _ = blockLines fmt num false (blockOf n (k, g))
      unfold blockLines
      rw [if_neg (by simp), List.append_nil]
      rfl
    | cons y r =>
      rw [rowsRuns, List.map_append, List.map_append, hm, ih fun z hz => h z (List.mem_cons_of_mem _ hz)]
      show _ = blockLines fmt num p (blockOf n (k, g)) ++ printBlocks num fmt p ((y :: r).map (blockOf n))
      congr 1
      unfold blockLines
      show _ = ((g.take n).map flipE).map entryLine ++ if p = true ∧ 0 < sumBy (fun e => num e.cst) ((g.drop n).map flipE) then [unusedLine fmt num (blockOf n (k, g))] else []
      congr 1
      rw [hsum]
      by_cases hc : p = true ∧ sumBy (fun e => num e.cst) (g.drop n) > 0
      · rw [if_pos hc, if_pos hc, List.map_singleton]
        congr 1
        unfold rowLine Row.swap unusedLine
        simp only
        rw [show (blockOf n (k, g)).dropped = (g.drop n).map flipE from rfl, hsum]
        rw [show ["<UNUSED_WORD>".toList] ++ ["|||".toList] ++ k ++ ["|||".toList] ++ [['0'], fmt (sumBy (fun e => num e.cst) (g.drop n))] =
          ["<UNUSED_WORD>".toList, "|||".toList] ++ (k ++ ["|||".toList, ['0'], fmt (sumBy (fun e => num e.cst) (g.drop n))]) by simp,
          join_append ["<UNUSED_WORD>".toList, "|||".toList] _ (by simp) (by simp), join_append k _ hk.1 (by simp)]
        simp [joinWords, blockOf]
      · rw [if_neg hc, if_neg hc]; rfl

theorem nbest_blocks (hfmt : ∀ x, Word (fmt x)) (t : List Entry) (hok : ∀ e ∈ t, EntryOk e) (hc : ∀ e ∈ t, 1 / 9 ≤ num e.cst) (hl : NoNumberClash look t) :
    ∃ lines, toSort num t = some lines ∧ ∀ sorted, IsSort sorted lines →
      ∃ bs, Best num n t bs ∧ nbestOut num fmt look n p sorted = printBlocks num fmt p bs := by
  have hne : ∀ e ∈ t, num e.cst ≠ 0 := by
    intro e he h0
    have := hc e he
    rw [h0] at this
    revert this; decide +kernel
  have hokf : ∀ e ∈ t.map flipE, EntryOk e ∧ num e.cst ≠ 0 := by
    intro e he
    obtain ⟨e', he', rfl⟩ := List.mem_map.1 he
    exact ⟨flipE_ok (hok e' he'), hne e' he'⟩
  refine ⟨_, by unfold toSort; rw [flip_entries hok 0, putFile_eq num _ hokf], ?_⟩
  rintro sorted ⟨hperm, hord⟩
  obtain ⟨t', ht', rfl⟩ := perm_map_lift (fun e => joinWords (putWords num e)) hperm
  have hok' : ∀ e ∈ t', EntryOk e := fun e he => (hokf e (ht'.mem_iff.1 he)).1
  have hmem : ∀ e ∈ t', flipE e ∈ t := by
    intro e he
    obtain ⟨e', he', rfl⟩ := List.mem_map.1 (ht'.mem_iff.1 he)
    exact he'
  have hby := put_bycount num (fun e he => ⟨hok' e he, hc (flipE e) (hmem e he)⟩) hord
  have hcon := put_contig num hok' hord
  obtain ⟨ks, hksN, hksM, hks⟩ := runs_contig (fun e : Entry => e.src) t' hcon
  have hl' : ∀ a ∈ t', ∀ b ∈ t', ∀ x y u, a.src = [x] → b.src = [y] → look x = some u → look y = some u → x = y :=
    fun a ha b hb x y u h1 h2 h3 h4 => hl (flipE a) (hmem a ha) (flipE b) (hmem b hb) x y u h1 h2 h3 h4
  have hrm : rmFile (t'.map fun e => joinWords (putWords num e)) = t'.map entryLine := by
    unfold rmFile
    rw [List.map_map]
    apply List.map_congr_left
    intro e he
    exact rm_put num (hok' e he)
  have hphr : ∀ x ∈ runs (fun e : Entry => e.src) t', Phrase x.1 ∧ ∀ e ∈ x.2, EntryOk e := by
    intro x hx
    rw [hks] at hx
    obtain ⟨s, hs, rfl⟩ := List.mem_map.1 hx
    obtain ⟨a, ha, rfl⟩ := (hksM s).1 hs
    exact ⟨(hok' a ha).src, fun e he => hok' e (List.mem_filter.1 he).1⟩
  have hflt : ∀ s, ((t'.filter fun b => decide (b.src = s)).map flipE).Perm (t.filter fun e => decide (e.trg = s)) := by
    intro s
    have h1 := (ht'.filter fun b => decide (b.src = s)).map flipE
    have h2 : ((t.map flipE).filter fun b => decide (b.src = s)).map flipE = t.filter fun e => decide (e.trg = s) := by
      rw [List.filter_map, List.map_map]
      exact List.map_id _
    rw [h2] at h1
    exact h1
  refine ⟨(runs (fun e : Entry => e.src) t').map (blockOf n), ⟨?_, ?_, ?_, ?_, ?_⟩, ?_⟩
  · rw [hks, List.map_map, List.map_map]
    have : (List.map ((Block.trg ∘ blockOf n) ∘ fun s => (s, t'.filter fun b => decide (b.src = s))) ks) = ks := List.map_id ks
    rw [this]; exact hksN
  · intro q
    rw [hks, List.map_map, List.map_map]
    have : (List.map ((Block.trg ∘ blockOf n) ∘ fun s => (s, t'.filter fun b => decide (b.src = s))) ks) = ks := List.map_id ks
    rw [this, hksM]
    constructor
    · rintro ⟨a, ha, rfl⟩; exact ⟨flipE a, hmem a ha, rfl⟩
    · rintro ⟨e, he, rfl⟩
      exact ⟨flipE e, ht'.mem_iff.2 (List.mem_map.2 ⟨e, he, rfl⟩), rfl⟩
  · intro b hb
    rw [hks, List.map_map] at hb
    obtain ⟨s, _, rfl⟩ := List.mem_map.1 hb
    show (((t'.filter fun b => decide (b.src = s)).take n).map flipE ++ ((t'.filter fun b => decide (b.src = s)).drop n).map flipE).Perm (t.filter fun e => decide (e.trg = s))
    rw [← List.map_append, List.take_append_drop]
    exact hflt s
  · intro b hb
    rw [hks, List.map_map] at hb
    obtain ⟨s, _, rfl⟩ := List.mem_map.1 hb
    show (((t'.filter fun b => decide (b.src = s)).take n).map flipE).length = min n (t.filter fun e => decide (e.trg = s)).length
    rw [List.length_map, List.length_take, ← (hflt s).length_eq, List.length_map]
  · intro b hb x hx y hy
    rw [hks, List.map_map] at hb
    obtain ⟨s, _, rfl⟩ := List.mem_map.1 hb
    obtain ⟨x', hx', rfl⟩ := List.mem_map.1 (show x ∈ ((t'.filter fun b => decide (b.src = s)).take n).map flipE from hx)
    obtain ⟨y', hy', rfl⟩ := List.mem_map.1 (show y ∈ ((t'.filter fun b => decide (b.src = s)).drop n).map flipE from hy)
    have hsub := List.Pairwise.filter (fun b => decide (b.src = s)) hby
    rw [← List.take_append_drop n (t'.filter fun b => decide (b.src = s))] at hsub
    have h1 := (List.pairwise_append.1 hsub).2.2 x' hx' y' hy'
    have hxs : x'.src = s := of_decide_eq_true (List.mem_filter.1 (List.mem_of_mem_take hx')).2
    have hys : y'.src = s := of_decide_eq_true (List.mem_filter.1 (List.mem_of_mem_drop hy')).2
    exact h1 (hxs.trans hys.symm)
  · unfold nbestOut
    rw [hrm, nb_runs num fmt look n p hl' hok', outRuns_rows num fmt n p _ (fun x hx => (hphr x hx).1),
      flip_rows _ (rowsRuns_ok num fmt n p hfmt _ hphr) 0, swap_rows num fmt n p _ fun x hx => (hphr x hx).1]

theorem printBlocks_false : ∀ bs, printBlocks num fmt false bs = bs.flatMap fun b => b.kept.map entryLine := by
  intro bs
  have hb : ∀ b, blockLines fmt num false b = b.kept.map entryLine := by
    intro b; unfold blockLines; rw [if_neg (by simp), List.append_nil]
  induction bs with
  | nil => rfl
  | cons b bs ih =>
    cases bs with
    | nil =>
      show blockLines fmt num false b = _
      rw [hb]; simp
    | cons c r =>
      show blockLines fmt num false b ++ printBlocks num fmt false (c :: r) = _
      rw [ih, hb]; rfl

theorem printBlocks_true : ∀ bs, printBlocks num fmt true bs =
    bs.dropLast.flatMap (blockLines fmt num true) ++ (bs.getLast?.toList).flatMap (blockLines fmt num false) := by
  intro bs
  induction bs with
  | nil => rfl
  | cons b bs ih =>
    cases bs with
    | nil =>
      show blockLines fmt num false b = _
      simp
    | cons c r =>
      show blockLines fmt num true b ++ printBlocks num fmt true (c :: r) = _
      rw [ih]
      simp [List.getLast?_cons_cons]
end

/-- The `n` best entries of every target phrase are written, for tables with counts of at least 1/9 where no two target phrases of one word
are different texts of the same number. Missing: such phrases (`C241_counterexample`) and smaller counts (`C240_counterexample`). -/
theorem C241_nbest_partial (num : Str → Rat) (fmt : Rat → Str) (hfmt : ∀ x, Word (fmt x)) (look : Str → Option Rat) (n : Nat) (t : List Entry)
    (hok : ∀ e ∈ t, EntryOk e) (hc : ∀ e ∈ t, 1 / 9 ≤ num e.cst) (hl : NoNumberClash look t) :
    ∃ lines, toSort num t = some lines ∧ ∀ sorted, IsSort sorted lines →
      ∃ bs, Best num n t bs ∧ nbestOut num fmt look n false sorted = bs.flatMap fun b => b.kept.map entryLine := by
  obtain ⟨lines, h1, h2⟩ := nbest_blocks num fmt look n false hfmt t hok hc hl
  refine ⟨lines, h1, fun sorted hs => ?_⟩
  obtain ⟨bs, h3, h4⟩ := h2 sorted hs
  exact ⟨bs, h3, h4.trans (printBlocks_false num fmt bs)⟩

/-- The full claim: any texts. -/
def C241_full : Prop := ∀ (num : Str → Rat) (fmt : Rat → Str), (∀ x, Word (fmt x)) → ∀ (look : Str → Option Rat) (n : Nat) (t : List Entry),
  (∀ e ∈ t, EntryOk e) → (∀ e ∈ t, 1 / 9 ≤ num e.cst) →
    ∃ lines, toSort num t = some lines ∧ ∀ sorted, IsSort sorted lines →
      ∃ bs, Best num n t bs ∧ nbestOut num fmt look n false sorted = bs.flatMap fun b => b.kept.map entryLine

/-- With `-p`, the remainder of every block but the last one is written. Missing: the remainder of the last block
(`C242_counterexample`). -/
theorem C242_remainder_partial (num : Str → Rat) (fmt : Rat → Str) (hfmt : ∀ x, Word (fmt x)) (look : Str → Option Rat) (n : Nat) (t : List Entry)
    (hok : ∀ e ∈ t, EntryOk e) (hc : ∀ e ∈ t, 1 / 9 ≤ num e.cst) (hl : NoNumberClash look t) :
    ∃ lines, toSort num t = some lines ∧ ∀ sorted, IsSort sorted lines →
      ∃ bs, Best num n t bs ∧ nbestOut num fmt look n true sorted =
        bs.dropLast.flatMap (blockLines fmt num true) ++ (bs.getLast?.toList).flatMap (blockLines fmt num false) := by
  obtain ⟨lines, h1, h2⟩ := nbest_blocks num fmt look n true hfmt t hok hc hl
  refine ⟨lines, h1, fun sorted hs => ?_⟩
  obtain ⟨bs, h3, h4⟩ := h2 sorted hs
  exact ⟨bs, h3, h4.trans (printBlocks_true num fmt bs)⟩

/-- The full claim: the remainder of every block. -/
def C242_full : Prop := ∀ (num : Str → Rat) (fmt : Rat → Str), (∀ x, Word (fmt x)) → ∀ (look : Str → Option Rat) (n : Nat) (t : List Entry),
  (∀ e ∈ t, EntryOk e) → (∀ e ∈ t, 1 / 9 ≤ num e.cst) → NoNumberClash look t →
    ∃ lines, toSort num t = some lines ∧ ∀ sorted, IsSort sorted lines →
      ∃ bs, Best num n t bs ∧ nbestOut num fmt look n true sorted = bs.flatMap (blockLines fmt num true)

/-! ### Counterexamples -/

def oneFmt (_ : Rat) : Str := ['f']
theorem oneFmt_word : ∀ x, Word (oneFmt x) := fun _ => exWord 'f' (by decide)
def fifth (_ : Str) : Rat := 1 / 5
theorem fifth_ne (w : Str) : fifth w ≠ 0 := by show (1 / 5 : Rat) ≠ 0; decide +kernel
theorem fifth_ge (w : Str) : 1 / 9 ≤ fifth w := by show (1 / 9 : Rat) ≤ 1 / 5; decide +kernel
def exLook (w : Str) : Option Rat := if w = ['1'] ∨ w = ['1', '.', '0'] then some 1 else none
def one1 : Entry := ⟨[['x']], [['1']], ['c'], ['q']⟩
def one2 : Entry := ⟨[['y']], [['1', '.', '0']], ['c'], ['q']⟩
def one3 : Entry := ⟨[['z']], [['1']], ['c'], ['q']⟩

theorem one_ok : EntryOk one1 ∧ EntryOk one2 ∧ EntryOk one3 := by
  refine ⟨⟨exPhrase _ (by decide), exPhrase _ (by decide), exWord _ (by decide), exWord _ (by decide)⟩,
    ⟨exPhrase _ (by decide), ⟨by decide, ?_⟩, exWord _ (by decide), exWord _ (by decide)⟩,
    ⟨exPhrase _ (by decide), exPhrase _ (by decide), exWord _ (by decide), exWord _ (by decide)⟩⟩
  intro w hw
  rw [show one2.trg = [['1', '.', '0']] from rfl, List.mem_singleton] at hw
  subst hw
  exact ⟨⟨by decide, by decide⟩, by decide⟩

theorem two_toSort {a b : Entry} (ha : EntryOk a) (hb : EntryOk b) :
    toSort fifth [a, b] = some [joinWords (putWords fifth (flipE a)), joinWords (putWords fifth (flipE b))] := by
  unfold toSort
  rw [flip_entries (by
    intro e he
    simp only [List.mem_cons, List.not_mem_nil, or_false] at he
    rcases he with rfl | rfl
    · exact ha
    · exact hb) 0, putFile_eq fifth _ (by
    intro e he
    simp only [List.map_cons, List.map_nil, List.mem_cons, List.not_mem_nil, or_false] at he
    rcases he with rfl | rfl
    · exact ⟨flipE_ok ha, fifth_ne _⟩
    · exact ⟨flipE_ok hb, fifth_ne _⟩)]
  rfl

theorem two_rm {a b : Entry} (ha : EntryOk a) (hb : EntryOk b) :
    rmFile [joinWords (putWords fifth (flipE a)), joinWords (putWords fifth (flipE b))] = [entryLine (flipE a), entryLine (flipE b)] := by
  show [rmLine _, rmLine _] = _
  rw [rm_put fifth (flipE_ok ha), rm_put fifth (flipE_ok hb)]

theorem two_sort {a b : Entry} (h : leText (joinWords (putWords fifth (flipE a))) (joinWords (putWords fifth (flipE b))) = true) :
    IsSort [joinWords (putWords fifth (flipE a)), joinWords (putWords fifth (flipE b))] [joinWords (putWords fifth (flipE a)), joinWords (putWords fifth (flipE b))] := by
  refine ⟨List.Perm.refl _, ?_⟩
  rw [List.pairwise_cons]
  exact ⟨fun y hy => by rw [List.mem_singleton] at hy; rw [hy]; exact h, List.pairwise_singleton _ _⟩

/-- The entries of the target phrase `1.0` are counted as entries of the target phrase `1`, and are lost. -/
theorem C241_counterexample : ¬ C241_full := by
  intro h
  obtain ⟨lines, h1, h2⟩ := h fifth oneFmt oneFmt_word exLook 1 [one1, one2] (by
    intro e he
    simp only [List.mem_cons, List.not_mem_nil, or_false] at he
    rcases he with rfl | rfl
    · exact one_ok.1
    · exact one_ok.2.1) (by intro e _; exact fifth_ge _)
  rw [two_toSort one_ok.1 one_ok.2.1] at h1
  injection h1 with h1
  subst h1
  have hord : leText (joinWords (putWords fifth (flipE one1))) (joinWords (putWords fifth (flipE one2))) = true := by
    have e1 : joinWords (putWords fifth (flipE one1)) = (d3 1 ++ " 1".toList) ++ (' ' :: joinWords [sep, fix20 (1 / fifth ['q']), d3 1, ['x'], sep, ['c'], ['q']]) := by
      unfold putWords
      simp [joinWords, one1, flipE]
    have e2 : joinWords (putWords fifth (flipE one2)) = (d3 1 ++ " 1".toList) ++ ('.' :: '0' :: ' ' :: joinWords [sep, fix20 (1 / fifth ['q']), d3 1, ['y'], sep, ['c'], ['q']]) := by
      unfold putWords
      simp [joinWords, one2, flipE]
    rw [e1, e2, leText_prefix]
    show (if ' ' < '.' then true else _) = true
    rw [if_pos (by decide)]
  obtain ⟨bs, hbs, hout⟩ := h2 _ (two_sort hord)
  have hout' : nbestOut fifth oneFmt exLook (1 : Nat) false [joinWords (putWords fifth (flipE one1)), joinWords (putWords fifth (flipE one2))] = [entryLine one1] := by
    unfold nbestOut
    rw [two_rm one_ok.1 one_ok.2.1]
    decide +kernel
  rw [hout'] at hout
  have hm : [['1', '.', '0']] ∈ bs.map Block.trg := (hbs.all _).2 ⟨one2, by simp, rfl⟩
  obtain ⟨b, hb, hbt⟩ := List.mem_map.1 hm
  have hfil : ([one1, one2].filter fun e => decide (e.trg = b.trg)) = [one2] := by
    rw [hbt]; rfl
  have hlen := hbs.size b hb
  rw [hfil] at hlen
  have hpart := hbs.part b hb
  rw [hfil] at hpart
  obtain ⟨e, he⟩ := List.length_eq_one_iff.1 (show b.kept.length = 1 from hlen)
  have he2 : e = one2 := by
    have := hpart.mem_iff.1 (show e ∈ b.kept ++ b.dropped by rw [he]; simp)
    simpa using this
  have : entryLine one2 ∈ [entryLine one1] := by
    rw [hout]
    exact List.mem_flatMap.2 ⟨b, hb, List.mem_map.2 ⟨one2, by rw [he, he2]; simp, rfl⟩⟩
  revert this
  decide

/-- The remainder of the only block is not written. -/
theorem C242_counterexample : ¬ C242_full := by
  intro h
  obtain ⟨lines, h1, h2⟩ := h fifth oneFmt oneFmt_word exLook 1 [one1, one3] (by
    intro e he
    simp only [List.mem_cons, List.not_mem_nil, or_false] at he
    rcases he with rfl | rfl
    · exact one_ok.1
    · exact one_ok.2.2) (by intro e _; exact fifth_ge _) (by
    intro a ha b hb x y u h1 h2 _ _
    simp only [List.mem_cons, List.not_mem_nil, or_false] at ha hb
    have hx : a.trg = [['1']] := by rcases ha with rfl | rfl <;> rfl
    have hy : b.trg = [['1']] := by rcases hb with rfl | rfl <;> rfl
    rw [hx] at h1
    rw [hy] at h2
    injection h1 with h1
    injection h2 with h2
    exact h1.symm.trans h2)
  rw [two_toSort one_ok.1 one_ok.2.2] at h1
  injection h1 with h1
  subst h1
  have hord : leText (joinWords (putWords fifth (flipE one1))) (joinWords (putWords fifth (flipE one3))) = true := by
    have e1 : joinWords (putWords fifth (flipE one1)) = (d3 1 ++ " 1 ||| ".toList ++ fix20 (1 / fifth ['q']) ++ ' ' :: (d3 1 ++ " ".toList)) ++ ('x' :: ' ' :: joinWords [sep, ['c'], ['q']]) := by
      unfold putWords
      simp [joinWords, one1, flipE, sep]
    have e2 : joinWords (putWords fifth (flipE one3)) = (d3 1 ++ " 1 ||| ".toList ++ fix20 (1 / fifth ['q']) ++ ' ' :: (d3 1 ++ " ".toList)) ++ ('z' :: ' ' :: joinWords [sep, ['c'], ['q']]) := by
      unfold putWords
      simp [joinWords, one3, flipE, sep]
    rw [e1, e2, leText_prefix]
    show (if 'x' < 'z' then true else _) = true
    rw [if_pos (by decide)]
  obtain ⟨bs, hbs, hout⟩ := h2 _ (two_sort hord)
  have hout' : nbestOut fifth oneFmt exLook (1 : Nat) true [joinWords (putWords fifth (flipE one1)), joinWords (putWords fifth (flipE one3))] = [entryLine one1] := by
    unfold nbestOut
    rw [two_rm one_ok.1 one_ok.2.2]
    decide +kernel
  rw [hout'] at hout
  have hm : [['1']] ∈ bs.map Block.trg := (hbs.all _).2 ⟨one1, by simp, rfl⟩
  obtain ⟨b, hb, hbt⟩ := List.mem_map.1 hm
  have hfil : ([one1, one3].filter fun e => decide (e.trg = b.trg)) = [one1, one3] := by
    rw [hbt]; rfl
  have hlen := hbs.size b hb
  have hpl := (hbs.part b hb).length_eq
  rw [hfil] at hlen hpl
  rw [List.length_append] at hpl
  have hd : b.dropped.length = 1 := by
    simp only [List.length_cons, List.length_nil] at hpl hlen
    omega
  obtain ⟨e, he⟩ := List.length_eq_one_iff.1 hd
  have hu : unusedLine oneFmt fifth b ∈ [entryLine one1] := by
    rw [hout]
    refine List.mem_flatMap.2 ⟨b, hb, ?_⟩
    unfold blockLines
    rw [if_pos ⟨rfl, by rw [he]; show (0 : Rat) < 1 / 5 + 0; decide +kernel⟩]
    simp
  unfold unusedLine at hu
  rw [hbt] at hu
  revert hu
  simp [entryLine, one1, joinWords, oneFmt, sep]

/-- Non-vacuity of the partial claims. -/
example : (∀ e ∈ [one1, one3], EntryOk e) ∧ (∀ e ∈ [one1, one3], 1 / 9 ≤ fifth e.cst) ∧ NoNumberClash (fun _ => none) [one1, one2, one3] := by
  refine ⟨?_, fun _ _ => fifth_ge _, ?_⟩
  · intro e he
    simp only [List.mem_cons, List.not_mem_nil, or_false] at he
    rcases he with rfl | rfl
    · exact one_ok.1
    · exact one_ok.2.2
  · intro a _ b _ x y u _ _ h _
    exact absurd h (by simp)

/-! ### A fraction as the number of options -/

/-- The claim of the header of the script: a value of `n` between 0 and 1 is a threshold, and the entries whose count is more than `n` times
the largest count of their target phrase are written. -/
def C243_full : Prop := ∀ (num : Str → Rat) (fmt : Rat → Str), (∀ x, Word (fmt x)) → ∀ (look : Str → Option Rat) (n : Rat), 0 < n → n < 1 → ∀ (t : List Entry),
  (∀ e ∈ t, EntryOk e) → (∀ e ∈ t, 1 / 9 ≤ num e.cst) → NoNumberClash look t →
    ∃ lines, toSort num t = some lines ∧ ∀ sorted, IsSort sorted lines →
      ∀ e ∈ t, (∀ e' ∈ t, e'.trg = e.trg → n * num e'.cst < num e.cst) → entryLine e ∈ nbestOut num fmt look n false sorted

theorem nb_small (num : Str → Rat) (fmt : Rat → Str) (look : Str → Option Rat) (n : Rat) (hn : n < 1) :
    ∀ (l : List Str) (st : NState), nbLoop num fmt look n false st l = [] := by
  have hk : ∀ (c : Nat) ln rem, 1 ≤ c → (keepOpt num n c ln rem).1 = [] := by
    intro c ln rem hc
    unfold keepOpt
    rw [if_neg]
    intro h
    have : (1 : Rat) ≤ (c : Rat) := by exact_mod_cast hc
    grind
  intro l
  induction l with
  | nil => intro st; rfl
  | cons ln l ih =>
    intro st
    rw [nbLoop, ih, ih, ih, hk 1 ln st.rem (by omega), hk (st.cnt + 1) ln st.rem (by omega), hk 1 ln 0 (by omega)]
    simp [remLine]

/-- With a value below 1 nothing is written. -/
theorem C243_empty_partial (num : Str → Rat) (fmt : Rat → Str) (look : Str → Option Rat) (n : Rat) (hn : n < 1) (sorted : List Str) :
    nbestOut num fmt look n false sorted = [] := by
  unfold nbestOut
  rw [nb_small num fmt look n hn]
  rfl

theorem C243_counterexample : ¬ C243_full := by
  intro h
  obtain ⟨lines, _, h2⟩ := h fifth oneFmt oneFmt_word (fun _ => none) (1 / 2) (by decide +kernel) (by decide +kernel) [one1] (by
    intro e he
    rw [List.mem_singleton] at he
    rw [he]; exact one_ok.1) (by intro e _; exact fifth_ge _) (by
    intro a _ b _ x y u _ _ h _
    exact absurd h (by simp))
  have hl : toSort fifth [one1] = some [joinWords (putWords fifth (flipE one1))] := by
    unfold toSort
    rw [flip_entries (by
      intro e he
      rw [List.mem_singleton] at he
      rw [he]; exact one_ok.1) 0, putFile_eq fifth _ (by
      intro e he
      simp only [List.map_cons, List.map_nil, List.mem_singleton] at he
      rw [he]; exact ⟨flipE_ok one_ok.1, by decide +kernel⟩)]
    rfl
  rename_i hlines
  rw [hl] at hlines
  injection hlines with hlines
  subst hlines
  have := h2 _ ⟨List.Perm.refl _, List.pairwise_singleton _ _⟩ one1 (by simp) (by
    intro e' he' _
    rw [List.mem_singleton] at he'
    rw [he']; decide +kernel)
  rw [C243_empty_partial _ _ _ _ (by decide +kernel)] at this
  cases this

end Thot.PhrTools
