import Verif.NgramDb.Scan
import Verif.Awk.Props
import Verif.Vocab.Props
import Verif.SentHandler.Lemmas
namespace Thot.NgramDb
open AMap LevelDb

/-! ### C184: incremental counts -/

/-- Unit increments of the counts of the n-grams `h w`, in order. -/
def increments (l : List (Phrase × Nat)) : List Op := l.map (fun x => .incr x.1 x.2 1)

/-- Number of increments of the n-gram `v`. -/
def times (l : List (Phrase × Nat)) (v : Phrase) : Nat := l.countP (fun x => decide (x.1 ++ [x.2] = v))

theorem times_snoc (l : List (Phrase × Nat)) (x : Phrase × Nat) (v : Phrase) :
    times (l ++ [x]) v = times l v + if x.1 ++ [x.2] = v then 1 else 0 := by
  simp only [times, List.countP_append, List.countP_singleton, decide_eq_true_eq]

theorem list_rev_induction {α : Type} {P : List α → Prop} (h0 : P []) (hs : ∀ l a, P l → P (l ++ [a])) : ∀ l, P l := by
  intro l
  have : ∀ l : List α, P l.reverse := by
    intro l
    induction l with
    | nil => exact h0
    | cons a l ih => rw [List.reverse_cons]; exact hs _ _ ih
  have h := this l.reverse
  rwa [List.reverse_reverse] at h

theorem spec_increments {rnd : Rat → Rat} (hex : ∀ n : Nat, n ≤ 999999 → rnd (n : Rat) = (n : Rat)) :
    ∀ l : List (Phrase × Nat), ∀ v, v ≠ [] → times l v ≤ 999999 → val (spec rnd (increments l)) v = (times l v : Rat) := by
  refine list_rev_induction ?_ ?_
  · intro v hv _
    simp [spec, increments, val, newCounts, hv, times]
  · intro l x ih v hv hle
    rw [times_snoc] at hle ⊢
    have e : spec rnd (increments (l ++ [x])) = assign (spec rnd (increments l)) (x.1 ++ [x.2])
        (rnd (val (spec rnd (increments l)) (x.1 ++ [x.2]) + 1)) := by
      simp [spec, increments, List.foldl_append, specStep]
    rw [e]
    by_cases h : x.1 ++ [x.2] = v
    · rw [if_pos h] at hle ⊢
      simp only [val, assign, h, if_true, Option.getD_some]
      have := ih v hv (by omega)
      simp only [val] at this
      rw [this]
      have e2 : ((times l v : Nat) : Rat) + 1 = ((times l v + 1 : Nat) : Rat) := by
        rw [Rat.natCast_add]; rfl
      rw [e2, hex _ hle]
    · rw [if_neg h] at hle ⊢
      have := ih v hv (by omega)
      simp only [val, assign, if_neg (Ne.symm h)]
      simp only [val] at this
      rw [this]; simp

theorem spec_increments_nil (rnd : Rat → Rat) : ∀ l : List (Phrase × Nat), spec rnd (increments l) [] = some 0 := by
  refine list_rev_induction ?_ ?_
  · simp [spec, increments, newCounts]
  · intro l x ih
    have e : spec rnd (increments (l ++ [x])) = assign (spec rnd (increments l)) (x.1 ++ [x.2])
        (rnd (val (spec rnd (increments l)) (x.1 ++ [x.2]) + 1)) := by
      simp [spec, increments, List.foldl_append, specStep]
    rw [e]
    have : ¬ ([] : Phrase) = x.1 ++ [x.2] := by simp
    simp only [assign, if_neg this]
    exact ih

theorem increments_ok {l : List (Phrase × Nat)} (h : ∀ x ∈ l, Ok (x.1 ++ [x.2])) : ∀ o ∈ increments l, OpOk o := by
  intro o ho
  simp only [increments, List.mem_map] at ho
  obtain ⟨x, hx, rfl⟩ := ho
  exact h x hx

/-- **C184 (partial).** After unit increments on a new table, as long as an n-gram was counted at most 999999 times, its
count is the number of its increments; the probability of a word after a non-empty history is the ratio of the numbers of
increments of the n-gram and of the history as an n-gram. -/
theorem C184_increments_partial {rnd : Rat → Rat} (hr : Fmt rnd) (hex : ∀ n : Nat, n ≤ 999999 → rnd (n : Rat) = (n : Rat))
    (l : List (Phrase × Nat)) (hl : ∀ x ∈ l, Ok (x.1 ++ [x.2])) (s : Phrase) (t : Nat) (h : Ok (s ++ [t]))
    (hle : times l (s ++ [t]) ≤ 999999) :
    cSrcTrg (run rnd (increments l)) s t = (times l (s ++ [t]) : Rat) ∧
    (s ≠ [] → times l s ≤ 999999 → cSrc (run rnd (increments l)) s = (times l s : Rat) ∧
      (0 < times l (s ++ [t]) → 0 < times l s →
        pTrgGivenSrc (run rnd (increments l)) s t = (times l (s ++ [t]) : Rat) / (times l s : Rat))) := by
  obtain ⟨h1, h2, _, h4⟩ := C181_counts_partial hr (increments l) (increments_ok hl) s t h
  have e2 := spec_increments hex l (s ++ [t]) (by simp) hle
  refine ⟨by rw [h2, e2], ?_⟩
  intro hs hle2
  have e1 := spec_increments hex l s hs hle2
  refine ⟨by rw [h1, e1], ?_⟩
  intro hp1 hp2
  rw [h4, e1, e2, if_pos ⟨by exact_mod_cast hp1, by exact_mod_cast hp2⟩]

/-- The intended property: unit increments give relative frequencies, for every history. -/
def C184_full : Prop := ∀ (rnd : Rat → Rat), Fmt rnd → (∀ n : Nat, n ≤ 999999 → rnd (n : Rat) = (n : Rat)) →
  ∀ (l : List (Phrase × Nat)), (∀ x ∈ l, Ok (x.1 ++ [x.2])) → ∀ (s : Phrase) (t : Nat), Ok (s ++ [t]) →
    0 < times l (s ++ [t]) →
    pTrgGivenSrc (run rnd (increments l)) s t =
      (times l (s ++ [t]) : Rat) / ((l.countP (fun x => decide (x.1 = s)) : Nat) : Rat)

/-- Whatever is counted, the probability of a word after the empty history is 0: the count of the empty history is never
increased. -/
theorem C184_unigrams_zero {rnd : Rat → Rat} (hr : Fmt rnd) (l : List (Phrase × Nat)) (hl : ∀ x ∈ l, Ok (x.1 ++ [x.2])) (t : Nat)
    (h : Ok [t]) : pTrgGivenSrc (run rnd (increments l)) [] t = 0 := by
  obtain ⟨_, _, _, h4⟩ := C181_counts_partial hr (increments l) (increments_ok hl) [] t h
  rw [h4]
  have e : val (spec rnd (increments l)) [] = 0 := by simp [val, spec_increments_nil]
  rw [if_neg]
  rintro ⟨_, h2⟩
  rw [e] at h2
  exact absurd h2 (by decide)

theorem ok5 : Ok [5] := ⟨by intro w hw; simp at hw; omega, by simp⟩

theorem C184_counterexample : ¬ C184_full := by
  intro h
  have hl : ∀ x ∈ [(([] : Phrase), 5)], Ok (x.1 ++ [x.2]) := by
    intro x hx; simp at hx; subst hx; exact ok5
  have h1 := h id fmt_id (fun _ _ => rfl) [([], 5)] hl [] 5 ok5 (by decide)
  rw [C184_unigrams_zero fmt_id _ hl 5 ok5] at h1
  revert h1
  decide +kernel

theorem append_replicate_snoc {α : Type} (a : α) (n : Nat) : List.replicate (n + 1) a = List.replicate n a ++ [a] := by
  rw [List.replicate_succ']

/-- Increments of 1 are lost from one million on: `1e+06` is printed for 1000001, so the count never moves again. -/
theorem C184_lost {rnd : Rat → Rat} (hr : Fmt rnd) (h6 : rnd 1000000 = 1000000) (h7 : rnd 1000001 = 1000000) (s : Phrase) (t : Nat)
    (h : Ok (s ++ [t])) (n : Nat) :
    cSrcTrg (run rnd (.addSrcTrg s t 1000000 :: List.replicate n (.incr s t 1))) s t = 1000000 := by
  have hok : ∀ o ∈ Op.addSrcTrg s t 1000000 :: List.replicate n (.incr s t 1), OpOk o := by
    intro o ho
    rcases List.mem_cons.1 ho with rfl | ho
    · exact h
    · rw [List.eq_of_mem_replicate ho]; exact h
  rw [(C181_counts_partial hr _ hok s t h).2.1]
  clear hok
  induction n with
  | zero => simp [spec, specStep, val, assign, h6]
  | succ n ih =>
    rw [append_replicate_snoc, ← List.cons_append]
    simp only [spec] at ih ⊢
    rw [List.foldl_append, List.foldl_cons, List.foldl_nil]
    simp only [specStep]
    rw [ih]
    simp only [val, assign, if_true, Option.getD_some]
    have : (1000000 : Rat) + 1 = 1000001 := by decide +kernel
    rw [this, h7]

/-- Six significant digits for integers below ten million. -/
def sig6 (x : Rat) : Rat := if 1000000 ≤ x ∧ x < 10000000 then 10 * ((x / 10 + 1 / 2).floor : Rat) else x

example : sig6 1000000 = 1000000 ∧ sig6 1000001 = 1000000 ∧ sig6 1234567 = 1234570 ∧ sig6 999999 = 999999 := by decide +kernel

example : cSrcTrg (run sig6 (.addSrcTrg [4] 5 1000000 :: List.replicate 3 (.incr [4] 5 1))) [4] 5 = 1000000 := by
  decide +kernel

example : cSrcTrg (run id (increments [([4], 5), ([4], 6), ([], 4), ([4], 5), ([], 4)])) [4] 5 = 2 ∧
    pTrgGivenSrc (run id (increments [([4], 5), ([4], 6), ([], 4), ([4], 5), ([], 4)])) [4] 5 = 1 := by decide +kernel

/-! ### C186: filling the table from a file of n-grams -/

/-- Add a word at the end unless it is there. -/
def addNew (l : List Word) (w : Word) : List Word := if w ∈ l then l else l ++ [w]

/-- The words of a file: the standard ones, then the others in order of appearance. -/
def wordsOf (ws : List Word) : List Word :=
  ws.foldl addNew [LangModel.unkStr, LangModel.bosStr, LangModel.eosStr, LangModel.spStr]

/-- The words of a line `h.. w c_h c_hw`; too short lines are ignored. -/
def lineWords (l : Word) : List Word :=
  if (Awk.fields ' ' l).length < 3 then [] else (Awk.fields ' ' l).take ((Awk.fields ' ' l).length - 2)

/-- The entry of a line, with the words numbered by their position in `V`. -/
def lineOp (atof : Word → Rat) (V : List Word) (l : Word) : Option Op :=
  if (Awk.fields ' ' l).length < 3 then none
  else some (.add (((Awk.fields ' ' l).take ((Awk.fields ' ' l).length - 3)).map (V.idxOf ·))
    (V.idxOf ((Awk.fields ' ' l)[(Awk.fields ' ' l).length - 3]?.getD []))
    (atof ((Awk.fields ' ' l)[(Awk.fields ' ' l).length - 2]?.getD []))
    (atof ((Awk.fields ' ' l)[(Awk.fields ' ' l).length - 1]?.getD [])))

/-- The vocabulary that numbers the words of `V` by their position. -/
def numbered (V : List Word) : VocMap := V.zipIdx

theorem idxOf_cons_ne' (V : List Word) {a w : Word} (h : a ≠ w) : (a :: V).idxOf w = V.idxOf w + 1 := by
  rw [List.idxOf_cons]
  have : (a == w) = false := by simpa using h
  simp [this]

theorem idxOf_append_mem' {V r : List Word} {w : Word} (h : w ∈ V) : (V ++ r).idxOf w = V.idxOf w := by
  rw [List.idxOf_append, if_pos h]

theorem idxOf_append_not' {V r : List Word} {w : Word} (h : w ∉ V) : (V ++ r).idxOf w = r.idxOf w + V.length := by
  rw [List.idxOf_append, if_neg h]

theorem lk_numbered (V : List Word) (w : Word) : ∀ k, lk (V.zipIdx k) w = if w ∈ V then some (k + V.idxOf w) else none := by
  induction V with
  | nil => intro k; simp [lk]
  | cons a V ih =>
    intro k
    rw [List.zipIdx_cons, lk, ih]
    by_cases h : a = w
    · subst h; simp
    · have : ¬ w = a := fun hc => h hc.symm
      simp only [if_neg h, List.mem_cons, this, false_or]
      split
      · rw [idxOf_cons_ne' _ h]
        congr 1; omega
      · rfl

theorem getSymbolId_numbered (V : List Word) (w : Word) :
    getSymbolId (numbered V) w = ((addNew V w).idxOf w, numbered (addNew V w)) := by
  unfold getSymbolId numbered
  rw [lk_numbered V w 0]
  by_cases h : w ∈ V
  · simp [h, addNew]
  · have hn : lk (V.zipIdx) w = none := by rw [lk_numbered V w 0, if_neg h]
    simp only [if_neg h, addNew]
    rw [put_of_none _ hn, idxOf_append_not' h]
    simp [List.zipIdx_append]

theorem getIds_numbered : ∀ (ws : List Word) (V : List Word),
    getIds (numbered V) ws = (ws.map ((ws.foldl addNew V).idxOf ·), numbered (ws.foldl addNew V)) ∧
      V <+: ws.foldl addNew V
  | [], V => by simp [getIds]
  | w :: ws, V => by
    have hp : V <+: addNew V w := by unfold addNew; split; exact List.prefix_refl _; exact List.prefix_append ..
    have hm : w ∈ addNew V w := by unfold addNew; split; assumption; simp
    obtain ⟨ih1, ih2⟩ := getIds_numbered ws (addNew V w)
    refine ⟨?_, hp.trans ih2⟩
    rw [getIds, getSymbolId_numbered, List.foldl_cons]
    simp only [ih1, List.map_cons, Prod.mk.injEq, List.cons.injEq, and_true]
    obtain ⟨r, hr⟩ := ih2
    rw [← hr, idxOf_append_mem' hm]

theorem idxOf_prefix {V V' : List Word} (h : V <+: V') {w : Word} (hw : w ∈ V) : V'.idxOf w = V.idxOf w := by
  obtain ⟨r, rfl⟩ := h
  exact idxOf_append_mem' hw

theorem foldl_addNew_mem : ∀ (ws V : List Word) (w : Word), w ∈ ws.foldl addNew V ↔ w ∈ V ∨ w ∈ ws
  | [], V, w => by simp
  | a :: ws, V, w => by
    rw [List.foldl_cons, foldl_addNew_mem ws]
    have : w ∈ addNew V a ↔ w ∈ V ∨ w = a := by
      unfold addNew
      split
      · next h => constructor
                  · exact .inl
                  · rintro (h' | rfl)
                    · exact h'
                    · exact h
      · simp
    rw [this, List.mem_cons, or_assoc]

theorem foldl_addNew_nodup : ∀ (ws V : List Word), V.Nodup → (ws.foldl addNew V).Nodup
  | [], V, h => h
  | a :: ws, V, h => by
    rw [List.foldl_cons]
    apply foldl_addNew_nodup ws
    unfold addNew
    split
    · exact h
    · next hn =>
      rw [List.nodup_append]
      refine ⟨h, by simp, ?_⟩
      intro x hx y hy
      simp at hy
      subst hy
      exact fun hc => hn (hc ▸ hx)

theorem histWords_eq (l : Word) : histWords l = (Awk.fields ' ' l).take ((Awk.fields ' ' l).length - 3) := by
  unfold histWords
  rw [Awk.C41_NF]
  apply List.ext_getElem?
  intro i
  simp only [List.getElem?_map, List.getElem?_take, (Awk.C41_dollar ' ' l).2]
  by_cases h : i < (Awk.fields ' ' l).length - 3
  · rw [if_pos h, List.getElem?_range h, Option.map_some]
    rw [List.getElem?_eq_getElem (by omega)]
    rfl
  · rw [if_neg h, List.getElem?_eq_none (by simp; omega)]
    rfl

theorem lineWords_eq {l : Word} (h : ¬ (Awk.fields ' ' l).length < 3) :
    lineWords l = histWords l ++ [(Awk.fields ' ' l)[(Awk.fields ' ' l).length - 3]?.getD []] := by
  rw [histWords_eq, lineWords, if_neg h]
  have e : (Awk.fields ' ' l).length - 2 = ((Awk.fields ' ' l).length - 3) + 1 := by omega
  rw [e, List.take_add_one, List.getElem?_eq_getElem (by omega)]
  rfl

theorem lineStep_spec (rnd : Rat → Rat) (atof : Word → Rat) (V : List Word) (tb : Tbl) (l : Word) :
    lineStep rnd atof (numbered V, tb) l = (numbered ((lineWords l).foldl addNew V),
      match lineOp atof ((lineWords l).foldl addNew V) l with
      | none => tb
      | some o => step rnd tb o) := by
  unfold lineStep
  rw [Awk.C41_NF]
  by_cases h : (Awk.fields ' ' l).length < 3
  · simp [h, lineWords, lineOp]
  · have hd : ∀ k, k + 1 ≤ (Awk.fields ' ' l).length → Awk.dollar ' ' l ((Awk.fields ' ' l).length - k) =
        (Awk.fields ' ' l)[(Awk.fields ' ' l).length - (k + 1)]?.getD [] := by
      intro k hk
      have : (Awk.fields ' ' l).length - k = ((Awk.fields ' ' l).length - (k + 1)) + 1 := by omega
      rw [this, (Awk.C41_dollar ' ' l).2]
    rw [if_neg h]
    have d0 := hd 0 (by omega)
    have d1 := hd 1 (by omega)
    have d2 := hd 2 (by omega)
    simp only [Nat.sub_zero, Nat.zero_add] at d0
    obtain ⟨g1, g2⟩ := getIds_numbered (histWords l) V
    have hw := lineWords_eq h
    simp only [d0, d1, d2, g1, getSymbolId_numbered]
    have e : addNew ((histWords l).foldl addNew V) ((Awk.fields ' ' l)[(Awk.fields ' ' l).length - (2 + 1)]?.getD []) =
        (lineWords l).foldl addNew V := by
      rw [hw, List.foldl_append]; rfl
    rw [e]
    refine Prod.ext rfl ?_
    simp only [lineOp, if_neg h, step]
    have e2 : (histWords l).map ((histWords l).foldl addNew V).idxOf =
        ((Awk.fields ' ' l).take ((Awk.fields ' ' l).length - 3)).map ((lineWords l).foldl addNew V).idxOf := by
      rw [← histWords_eq]
      apply List.map_congr_left
      intro w hw'
      have hp : (histWords l).foldl addNew V <+: (lineWords l).foldl addNew V := by
        rw [hw, List.foldl_append]
        exact (getIds_numbered _ _).2
      exact (idxOf_prefix hp ((foldl_addNew_mem _ _ _).2 (.inr hw'))).symm
    rw [e2]

theorem lineOp_prefix (atof : Word → Rat) {V V' : List Word} (h : V <+: V') (l : Word) (hl : ∀ w ∈ lineWords l, w ∈ V) :
    lineOp atof V' l = lineOp atof V l := by
  unfold lineOp
  by_cases hn : (Awk.fields ' ' l).length < 3
  · rw [if_pos hn, if_pos hn]
  · rw [if_neg hn, if_neg hn]
    have hw := lineWords_eq hn
    rw [histWords_eq] at hw
    have e1 : ((Awk.fields ' ' l).take ((Awk.fields ' ' l).length - 3)).map (V'.idxOf ·) =
        ((Awk.fields ' ' l).take ((Awk.fields ' ' l).length - 3)).map (V.idxOf ·) := by
      apply List.map_congr_left
      intro w hw'
      exact idxOf_prefix h (hl w (by rw [hw]; exact List.mem_append_left _ hw'))
    rw [e1, idxOf_prefix h (hl _ (by rw [hw]; simp))]

theorem foldl_lines (rnd : Rat → Rat) (atof : Word → Rat) : ∀ (ls : List Word) (V : List Word) (tb : Tbl),
    ls.foldl (lineStep rnd atof) (numbered V, tb) = (numbered ((ls.flatMap lineWords).foldl addNew V),
      (ls.filterMap (lineOp atof ((ls.flatMap lineWords).foldl addNew V))).foldl (step rnd) tb)
  | [], V, tb => by simp
  | l :: ls, V, tb => by
    rw [List.foldl_cons, lineStep_spec, foldl_lines rnd atof ls, List.flatMap_cons, List.foldl_append]
    refine Prod.ext rfl ?_
    simp only
    have hp := (getIds_numbered (ls.flatMap lineWords) ((lineWords l).foldl addNew V)).2
    have e := lineOp_prefix atof hp l (fun w hw => (foldl_addNew_mem _ _ _).2 (.inr hw))
    rw [List.filterMap_cons, e]
    cases lineOp atof ((lineWords l).foldl addNew V) l <;> rfl

/-- **C186.** For a file of lines, each word gets as number its position in the list of the standard words and the words
of the lines in order of appearance (all different, so different words have different numbers), and the table is the one
obtained by storing the entries of the lines of at least three fields, in order, with those numbers; other lines have no
effect. -/
theorem C186_tool (rnd : Rat → Rat) (atof : Word → Rat) (ls : List Word) (hls : ∀ l ∈ ls, SentHandler.Line l) :
    let V := wordsOf (ls.flatMap lineWords)
    ngramToLevelDb rnd atof (SentHandler.text ls) = (V.zipIdx, run rnd (ls.filterMap (lineOp atof V))) ∧
    V.Nodup ∧ (∀ w, w ∈ V ↔ w ∈ [LangModel.unkStr, LangModel.bosStr, LangModel.eosStr, LangModel.spStr] ∨
      ∃ l ∈ ls, w ∈ lineWords l) ∧
    V.take 4 = [LangModel.unkStr, LangModel.bosStr, LangModel.eosStr, LangModel.spStr] := by
  intro V
  refine ⟨?_, ?_, ?_, ?_⟩
  · unfold ngramToLevelDb SentHandler.text
    rw [Awk.C42_lines_partial ls hls]
    · have e : initVoc = numbered [LangModel.unkStr, LangModel.bosStr, LangModel.eosStr, LangModel.spStr] := by
        decide +kernel
      rw [e, foldl_lines]
      rfl
    · have : ∀ ls : List Word, ls.length ≤ (ls.flatMap fun l : Word => l ++ ['\n']).length := by
        intro ls
        induction ls with
        | nil => simp
        | cons l ls ih => simp only [List.flatMap_cons, List.length_append, List.length_cons, List.length_nil]; omega
      exact Nat.lt_succ_of_le (this ls)
  · exact foldl_addNew_nodup _ _ (by decide +kernel)
  · intro w
    show w ∈ wordsOf _ ↔ _
    rw [wordsOf, foldl_addNew_mem, List.mem_flatMap]
  · obtain ⟨r, hr⟩ := (getIds_numbered (ls.flatMap lineWords)
      [LangModel.unkStr, LangModel.bosStr, LangModel.eosStr, LangModel.spStr]).2
    show List.take 4 (wordsOf _) = _
    rw [wordsOf, ← hr]
    rfl

example : (ngramToLevelDb id (fun w => ((Vocab.atoi w).getD 0 : Int)) (SentHandler.text
      ["a 9 4".toList, "b 9 5".toList, "a b 4 2".toList, "x".toList, "b <s> a 2 1".toList])).1.drop 4 =
      [("a".toList, 4), ("b".toList, 5)] ∧
    entries (ngramToLevelDb id (fun w => ((Vocab.atoi w).getD 0 : Int)) (SentHandler.text
      ["a 9 4".toList, "b 9 5".toList, "a b 4 2".toList, "x".toList, "b <s> a 2 1".toList])).2 =
      some [([4], 4), ([5], 5), ([4, 5], 2), ([5, 1], 2), ([5, 1, 4], 1)] := by decide +kernel

/-! ### C187: the vocabulary file -/

/-- Words that `istream >> string` reads back. -/
def Plain (w : Word) : Prop := w ≠ [] ∧ ∀ c ∈ w, Vocab.isSpace c = false

theorem dropWhile_head {p : Char → Bool} {c : Char} {r : Word} (h : p c = false) : (c :: r).dropWhile p = c :: r := by
  rw [List.dropWhile_cons, h]; rfl

theorem dropWhile_all {p : Char → Bool} : ∀ (l : Word), (∀ c ∈ l, p c = true) → l.dropWhile p = []
  | [], _ => rfl
  | c :: l, h => by
    rw [List.dropWhile_cons, if_pos (h c (List.mem_cons_self ..))]
    exact dropWhile_all l (fun d hd => h d (List.mem_cons_of_mem _ hd))

theorem takeWhile_stop {p : Char → Bool} : ∀ (w : Word) {c : Char} (r : Word), (∀ d ∈ w, p d = true) → p c = false →
    (w ++ c :: r).takeWhile p = w ∧ (w ++ c :: r).dropWhile p = c :: r
  | [], c, r, _, h => by simp [h]
  | d :: w, c, r, hw, h => by
    obtain ⟨h1, h2⟩ := takeWhile_stop w r (fun x hx => hw x (List.mem_cons_of_mem _ hx)) h
    have hd := hw d (List.mem_cons_self ..)
    simp only [List.cons_append, List.takeWhile_cons, List.dropWhile_cons, hd, if_true, h1, h2, and_self]

theorem isDig_digit (n : Nat) : Vocab.isDig (Vocab.digit n) = true ∧ Vocab.isSpace (Vocab.digit n) = false := by
  have h : n % 10 < 10 := Nat.mod_lt _ (by omega)
  unfold Vocab.digit
  generalize n % 10 = k at h
  have : ∀ k, k < 10 → Vocab.isDig (Char.ofNat (48 + k)) = true ∧ Vocab.isSpace (Char.ofNat (48 + k)) = false := by
    decide +kernel
  exact this k h

theorem readTok_word (w r : Word) (hw : Plain w) (pre : Word) (hpre : ∀ c ∈ pre, Vocab.isSpace c = true) :
    readTok (pre ++ (w ++ ' ' :: r)) = some (w, ' ' :: r) := by
  obtain ⟨c, w', rfl⟩ := List.exists_cons_of_ne_nil hw.1
  have hc := hw.2 c (List.mem_cons_self ..)
  unfold readTok
  have e : (pre ++ (c :: w' ++ ' ' :: r)).dropWhile Vocab.isSpace = c :: (w' ++ ' ' :: r) := by
    rw [List.cons_append]
    exact (takeWhile_stop pre _ hpre hc).2
  rw [e]
  simp only
  obtain ⟨h1, h2⟩ := takeWhile_stop (p := fun d => !Vocab.isSpace d) (c :: w') (c := ' ') r
    (by intro d hd; simp [hw.2 d hd]) (by decide)
  rw [List.cons_append] at h1 h2
  rw [h1, h2]

theorem readNum_showNat (n : Nat) (hn : n < 2 ^ 32) (r : Word) :
    readNum (' ' :: (Vocab.showNat n ++ '\n' :: r)) = (n, true, '\n' :: r) := by
  obtain ⟨c, d, hcd⟩ := List.exists_cons_of_ne_nil (Vocab.showNat_ne_nil n)
  have hdig : ∀ x ∈ Vocab.showNat n, Vocab.isDig x = true ∧ Vocab.isSpace x = false := by
    intro x hx
    obtain ⟨m, rfl⟩ := Vocab.showNat_digits n x hx
    exact isDig_digit m
  have hs : (' ' :: (Vocab.showNat n ++ '\n' :: r)).dropWhile Vocab.isSpace = Vocab.showNat n ++ '\n' :: r := by
    rw [List.dropWhile_cons, if_pos (by decide), hcd, List.cons_append]
    exact dropWhile_head (hdig c (by rw [hcd]; exact List.mem_cons_self ..)).2
  obtain ⟨h1, h2⟩ := takeWhile_stop (p := Vocab.isDig) (Vocab.showNat n) (c := '\n') r (fun x hx => (hdig x hx).1) (by decide)
  unfold readNum
  simp only [hs, h1, h2]
  rw [if_neg (Vocab.showNat_ne_nil n), Vocab.atoiDigits_showNat, if_pos hn]

theorem encLoop_text : ∀ (m : VocMap) (fuel : Nat) (e : LangModel.Enc) (prev : Option (Word × Nat)) (pre : Word),
    (∀ x ∈ m, Plain x.1 ∧ x.2 < 2 ^ 32) → (∀ c ∈ pre, Vocab.isSpace c = true) → m.length < fuel →
    encLoop fuel e prev (pre ++ vocText m) = (match m.getLast? with
      | none => prev.map (fun p => e.addCode p.1 p.2)
      | some p => some ((e.load m).addCode p.1 p.2))
  | [], 0, _, _, _, _, _, hf => by simp at hf
  | [], fuel + 1, e, prev, pre, _, hpre, _ => by
    have : readTok (pre ++ vocText []) = none := by
      have hd : pre.dropWhile Vocab.isSpace = [] := dropWhile_all pre hpre
      simp [readTok, vocText, hd]
    simp only [encLoop, this]
    rfl
  | x :: m, 0, _, _, _, _, _, hf => by simp at hf
  | x :: m, fuel + 1, e, prev, pre, hm, hpre, hf => by
    obtain ⟨hx1, hx2⟩ := hm x (List.mem_cons_self ..)
    have e1 : vocText (x :: m) = x.1 ++ ' ' :: (Vocab.showNat x.2 ++ '\n' :: vocText m) := by
      simp [vocText]
    have h1 := readTok_word x.1 (Vocab.showNat x.2 ++ '\n' :: vocText m) hx1 pre hpre
    have h2 := readNum_showNat x.2 hx2 (vocText m)
    have h3 : ¬ (' ' :: (Vocab.showNat x.2 ++ '\n' :: vocText m)).dropWhile Vocab.isSpace = [] := by
      obtain ⟨c, d, hcd⟩ := List.exists_cons_of_ne_nil (Vocab.showNat_ne_nil x.2)
      obtain ⟨k, hk⟩ := Vocab.showNat_digits x.2 c (by rw [hcd]; exact List.mem_cons_self ..)
      rw [List.dropWhile_cons, if_pos (by decide), hcd, List.cons_append,
        dropWhile_head (by rw [hk]; exact (isDig_digit k).2)]
      simp
    rw [e1, encLoop, h1]
    simp only
    rw [if_neg h3]
    simp only [h2, if_true]
    have ih := encLoop_text m fuel (e.addCode x.1 x.2) (some x) ['\n'] (fun y hy => hm y (List.mem_cons_of_mem _ hy))
      (by decide) (by simpa using hf)
    rw [List.singleton_append] at ih
    rw [ih]
    cases m with
    | nil => simp [LangModel.Enc.load]
    | cons y m =>
      rw [List.getLast?_cons_cons]
      cases hg : (y :: m).getLast? with
      | none => simp at hg
      | some p => rfl

theorem load_lk : ∀ (m : VocMap) (e : LangModel.Enc), (m.map Prod.fst).Nodup → (m.map Prod.snd).Nodup →
    (∀ w, lk (e.load m).w2c w = (lk m w).or (lk e.w2c w)) ∧
    (∀ i, lk (e.load m).c2w i = (lk (m.map (fun x => (x.2, x.1))) i).or (lk e.c2w i)) ∧ (e.load m).last = e.last
  | [], e, _, _ => by
    simp [LangModel.Enc.load, lk]
  | x :: m, e, h1, h2 => by
    obtain ⟨i1, i2, i3⟩ := load_lk m (e.addCode x.1 x.2) (List.nodup_cons.1 h1).2 (List.nodup_cons.1 h2).2
    have hl : e.load (x :: m) = (e.addCode x.1 x.2).load m := rfl
    refine ⟨?_, ?_, by rw [hl, i3]; rfl⟩
    · intro w
      rw [hl, i1, lk]
      simp only [LangModel.Enc.addCode, lk_put]
      by_cases h : x.1 = w
      · subst h
        have : lk m x.1 = none := lk_none_iff.2 (List.nodup_cons.1 h1).1
        simp [this]
      · simp [h, Ne.symm h]
    · intro i
      rw [hl, i2, List.map_cons, lk]
      simp only [LangModel.Enc.addCode, lk_put]
      by_cases h : x.2 = i
      · subst h
        have : lk (m.map (fun x => (x.2, x.1))) x.2 = none := by
          refine lk_none_iff.2 ?_
          rw [List.map_map]
          exact (List.nodup_cons.1 h2).1
        simp [this]
      · simp [h, Ne.symm h]

/-- **C187.** The vocabulary file written for a file of n-grams, its lines in any order, loaded by a new language model:
every word gets as code the number used in the table, every number stands for its word, and words that do not appear get
the code of the unknown word. -/
theorem C187_vocabulary (V : List Word) (hV : V.Nodup) (hp : ∀ w ∈ V, Plain w) (h32 : V.length ≤ 2 ^ 32)
    (h4 : V.take 4 = [LangModel.unkStr, LangModel.bosStr, LangModel.eosStr, LangModel.spStr]) (m : VocMap)
    (hm : m.Perm V.zipIdx) :
    ∃ e, encLoad LangModel.Enc.lm (vocText m) = some e ∧
      (∀ w, e.code w = if w ∈ V then (true, V.idxOf w) else (false, 0)) ∧
      (∀ i, e.decode i = V[i]?) := by
  have hfst : (V.zipIdx.map Prod.fst) = V := List.zipIdx_map_fst 0 V
  have hsnd : (V.zipIdx.map Prod.snd) = List.range V.length := by rw [List.zipIdx_map_snd, List.range_eq_range']
  have hdm1 : (m.map Prod.fst).Nodup := by
    rw [(hm.map Prod.fst).nodup_iff, hfst]; exact hV
  have hdm2 : (m.map Prod.snd).Nodup := by
    rw [(hm.map Prod.snd).nodup_iff, hsnd]; exact List.nodup_range
  have hpl : ∀ x ∈ m, Plain x.1 ∧ x.2 < 2 ^ 32 := by
    intro x hx
    have hx' := hm.mem_iff.1 hx
    have h1 : x.1 ∈ V := by rw [← hfst]; exact List.mem_map_of_mem hx'
    have h2 : x.2 ∈ List.range V.length := by rw [← hsnd]; exact List.mem_map_of_mem hx'
    exact ⟨hp _ h1, by have := List.mem_range.1 h2; omega⟩
  have hfuel : m.length < (vocText m).length + 1 := by
    have : ∀ m : VocMap, m.length ≤ (vocText m).length := by
      intro m
      induction m with
      | nil => simp
      | cons x m ih =>
        simp only [vocText, List.flatMap_cons, List.length_append, List.length_cons] at ih ⊢; omega
    have := this m
    omega
  have hload := encLoop_text m _ LangModel.Enc.lm none [] hpl (by simp) hfuel
  obtain ⟨w1, c1, _⟩ := load_lk m LangModel.Enc.lm hdm1 hdm2
  have hne : V ≠ [] := by rintro rfl; simp at h4
  have hmne : m ≠ [] := by
    rintro rfl
    have := hm.length_eq
    simp at this
    exact hne (List.length_eq_zero_iff.1 this.symm)
  obtain ⟨p, hlast⟩ : ∃ p, m.getLast? = some p := by
    cases hg : m.getLast? with
    | none => exact absurd (List.getLast?_eq_none_iff.1 hg) hmne
    | some p => exact ⟨p, rfl⟩
  rw [hlast] at hload
  have hpm : p ∈ m := List.mem_of_getLast? hlast
  have dm : Distinct m := hdm1
  have dm2 : Distinct (m.map (fun x => (x.2, x.1))) := by
    unfold Distinct
    rw [List.map_map]
    exact hdm2
  have l1 : ∀ w, lk m w = if w ∈ V then some (V.idxOf w) else none := by
    intro w
    rw [lk_eq_of_perm hm dm, lk_numbered V w 0, Nat.zero_add]
  have l2 : ∀ i, lk (m.map (fun x => (x.2, x.1))) i = V[i]? := by
    intro i
    cases h : V[i]? with
    | none =>
      rw [lk_none_iff, List.map_map]
      intro hc
      have hc2 : i ∈ m.map Prod.snd := hc
      rw [(hm.map Prod.snd).mem_iff, hsnd, List.mem_range] at hc2
      rw [List.getElem?_eq_none_iff] at h
      omega
    | some w =>
      rw [lk_some_iff dm2, List.mem_map]
      refine ⟨(w, i), ?_, rfl⟩
      rw [hm.mem_iff]
      exact List.mk_mem_zipIdx_iff_getElem?.2 h
  have std : ∀ w i, lk LangModel.Enc.lm.w2c w = some i → w ∈ V := by
    intro w i h
    have : w ∈ [LangModel.unkStr, LangModel.bosStr, LangModel.eosStr, LangModel.spStr] := by
      have h2 : LangModel.Enc.lm.w2c.map Prod.fst = [LangModel.unkStr, LangModel.bosStr, LangModel.eosStr, LangModel.spStr] := by
        decide +kernel
      rw [← h2]
      refine Classical.byContradiction fun hc => ?_
      rw [lk_none_iff.2 hc] at h
      cases h
    rw [← h4] at this
    exact List.mem_of_mem_take this
  have hlen4 : 4 ≤ V.length := by
    have := congrArg List.length h4
    simp at this; omega
  have std2 : ∀ i w, lk LangModel.Enc.lm.c2w i = some w → i < 4 := by
    intro i w h
    have : i ∈ LangModel.Enc.lm.c2w.map Prod.fst := by
      refine Classical.byContradiction fun hc => ?_
      rw [lk_none_iff.2 hc] at h
      cases h
    have h2 : LangModel.Enc.lm.c2w.map Prod.fst = [0, 1, 2, 3] := by decide +kernel
    rw [h2] at this
    simp at this
    omega
  refine ⟨_, hload, ?_, ?_⟩
  · intro w
    have hl : lk ((LangModel.Enc.lm.load m).addCode p.1 p.2).w2c w = if w ∈ V then some (V.idxOf w) else none := by
      simp only [LangModel.Enc.addCode, lk_put]
      split
      · next h =>
        rw [← l1 w, h]
        exact ((lk_some_iff dm).2 hpm).symm
      · rw [w1, l1]
        by_cases h : w ∈ V
        · simp [h]
        · have : lk LangModel.Enc.lm.w2c w = none := by
            cases hc : lk LangModel.Enc.lm.w2c w with
            | none => rfl
            | some i => exact absurd (std w i hc) h
          simp [h, this]
    rw [LangModel.Enc.code, hl]
    by_cases h : w ∈ V <;> simp [h, LangModel.unkSymbol]
  · intro i
    simp only [LangModel.Enc.decode, LangModel.Enc.addCode, lk_put]
    split
    · next h =>
      rw [← l2 i, h]
      refine ((lk_some_iff dm2).2 ?_).symm
      rw [List.mem_map]
      exact ⟨p, hpm, rfl⟩
    · rw [c1, l2]
      cases h : V[i]? with
      | some w => rfl
      | none =>
        rw [List.getElem?_eq_none_iff] at h
        cases hc : lk LangModel.Enc.lm.c2w i with
        | none => rfl
        | some w => have := std2 i w hc; omega

/-- A word without a number after it at the end of a vocabulary file takes the number of the word before; an empty
vocabulary file is undefined (the number stored is not initialised). -/
theorem C187_bad_files :
    (encLoad LangModel.Enc.lm "a 4\nb".toList).map (fun e => e.code "b".toList) = some (true, 4) ∧
    (encLoad LangModel.Enc.lm []).isNone = true := by decide +kernel

example : (encLoad LangModel.Enc.lm "<s> 1\na 4\nb 5\n<unk> 0\n".toList).map
    (fun e => (e.code "b".toList, e.decode 4, e.code "c".toList)) = some ((true, 5), some "a".toList, (false, 0)) := by
  decide +kernel

end Thot.NgramDb
