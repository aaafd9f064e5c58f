import Verif.Preproc.DecModel
import Verif.Preproc.LmProps
/-!
C256, C257: recasing and detokenizing.
-/
namespace Thot.Preproc

open Thot
open Thot.SentHandler (joinWords Word fields_join)
open Thot.Awk (fields)
open Thot.AMap (lk put Distinct)
open Thot.PhrTools (join_append)

/-! ### Specification -/

/-- The recaser trained with the words `h` of a raw text, `lc` being the conversion to lower case (`train_rec_tm`). -/
def recTM (lc : Str → Str) (h : List Str) : TM := TM.empty.run (h.map fun w => (lc w, w, 1))

/-- A word has been seen with one casing at most. -/
def OneCasing (lc : Str → Str) (h : List Str) (x : Str) : Prop := ∀ a ∈ h, ∀ b ∈ h, lc a = x → lc b = x → a = b

/-- The casing of a word: the one seen, or itself when none has been seen. -/
def cased (lc : Str → Str) (h : List Str) (x : Str) : Str := (h.find? fun a => decide (lc a = x)).getD x

/-- A grouping of tokens: consecutive groups of one to seven, each written without blanks. -/
def Grouping (toks : List Str) (out : Str) : Prop :=
  ∃ gs : List (List Str), gs.flatten = toks ∧ (∀ g ∈ gs, 1 ≤ g.length ∧ g.length ≤ 7) ∧ out = joinWords (gs.map List.flatten)

/-! ### Insertions -/

theorem insAll_nil (n : Nat) (d : List (StInfo × Rat)) : insAll n [] ([], d) = some ([], d) := rfl

theorem insAll_one (n : Nat) (x : Hyp) (d : List (StInfo × Rat)) : insAll n [x] ([], d) = some ([x], dictIns d (stInfo n x) x.score) := by
  simp [insAll, insHyp, heapPush]

theorem insAll_two (n : Nat) (x y : Hyp) (xs : List Hyp) (d : List (StInfo × Rat)) : insAll n (x :: y :: xs) ([], d) = none := by
  simp [insAll, insHyp, heapPush]

theorem nextPos_snoc (cov : List Nat) (c : Nat) : nextPos (cov ++ [c]) = c + 1 := by
  unfold nextPos; rw [List.getLast?_concat]

/-! ### Recasing -/

/-- The translation model of a recaser. -/
structure RecOk (tm : TM) : Prop where
  src : ∀ s, tm.opts s ≠ [] → Word s
  opt : ∀ s, ∀ o ∈ tm.opts s, Word o ∧ o ≠ bosStr

def best (tm : TM) (x : Str) : Str := (tm.opts x).head?.getD x

theorem join_blank {u v : Str} {ws : List Str} : ' ' ∈ joinWords (u :: v :: ws) := by
  show ' ' ∈ u ++ ' ' :: joinWords (v :: ws)
  simp

theorem long_none {tm : TM} (h : RecOk tm) {toks : List Str} (hw : ∀ w ∈ toks, Word w) {hy : Hyp} {l : Nat}
    (hl : nextPos hy.cov + (l + 1) < toks.length) : expOpts tm (newSrc toks hy (nextPos hy.cov + (l + 1))) = [] := by
  have hlen : ((toks.drop (nextPos hy.cov)).take (nextPos hy.cov + (l + 1) + 1 - nextPos hy.cov)).length = l + 2 := by
    rw [List.length_take, List.length_drop]; omega
  unfold newSrc
  generalize hg : (toks.drop (nextPos hy.cov)).take (nextPos hy.cov + (l + 1) + 1 - nextPos hy.cov) = g at hlen
  have hgw : ∀ w ∈ g, Word w := by
    intro w hm
    rw [← hg] at hm
    exact hw w (List.mem_of_mem_drop (List.mem_of_mem_take hm))
  have hf : fields ' ' (joinWords g) = g := fields_join hgw
  have ho : tm.opts (joinWords g) = [] := by
    apply Classical.byContradiction
    intro hc
    have hwd := h.src _ hc
    match g, hlen with
    | u :: v :: ws, _ => exact (hwd.2 ' ' join_blank).1 rfl
  unfold expOpts
  rw [if_neg, ho]
  rintro ⟨_, h2⟩
  rw [hf] at h2
  omega

theorem one_src {toks : List Str} {hy : Hyp} {w : Str} (hk : toks[nextPos hy.cov]? = some w) : newSrc toks hy (nextPos hy.cov) = w := by
  unfold newSrc
  have : (toks.drop (nextPos hy.cov)).take (nextPos hy.cov + 1 - nextPos hy.cov) = [w] := by
    rw [show nextPos hy.cov + 1 - nextPos hy.cov = 1 by omega]
    have hlt : nextPos hy.cov < toks.length := (List.getElem?_eq_some_iff.1 hk).1
    rw [List.drop_eq_getElem_cons hlt, (List.getElem?_eq_some_iff.1 hk).2]
    rfl
  rw [this]; rfl

theorem rec_exp {tm : TM} (h : RecOk tm) (ext : Hyp → Nat → Str → Rat) {toks : List Str} (hw : ∀ w ∈ toks, Word w) {hy : Hyp} {w : Str}
    (hk : toks[nextPos hy.cov]? = some w) : allExp tm ext toks hy =
      (expOpts tm w).map fun o => ⟨hy.cov ++ [nextPos hy.cov], newWords hy.words o, hy.score + ext hy (nextPos hy.cov) o⟩ := by
  have hlt : nextPos hy.cov < toks.length := (List.getElem?_eq_some_iff.1 hk).1
  unfold allExp
  rw [show (7 : Nat) = 6 + 1 from rfl, List.range_succ_eq_map, List.flatMap_cons]
  have e1 : (if nextPos hy.cov + 0 < toks.length then expand tm ext toks hy (nextPos hy.cov + 0) else []) =
      (expOpts tm w).map fun o => ⟨hy.cov ++ [nextPos hy.cov], newWords hy.words o, hy.score + ext hy (nextPos hy.cov) o⟩ := by
    rw [Nat.add_zero, if_pos hlt]
    unfold expand
    rw [one_src hk]
  have e2 : ((List.map Nat.succ (List.range 6)).flatMap fun l =>
      if nextPos hy.cov + l < toks.length then expand tm ext toks hy (nextPos hy.cov + l) else []) = [] := by
    rw [List.flatMap_eq_nil_iff]
    intro l hl
    obtain ⟨l', _, rfl⟩ := List.mem_map.1 hl
    by_cases hlt : nextPos hy.cov + l'.succ < toks.length
    · rw [if_pos hlt]
      unfold expand
      rw [long_none h hw hlt]; rfl
    · rw [if_neg hlt]
  rw [e1, e2, List.append_nil]

theorem expOpts_word {tm : TM} {w : Str} (hw : Word w) : expOpts tm w = if tm.opts w = [] then [w] else tm.opts w := by
  have hf : fields ' ' w = [w] := fields_join (ws := [w]) (by simpa using hw)
  unfold expOpts
  rw [hf]
  by_cases h : tm.opts w = []
  · rw [if_pos ⟨h, rfl⟩, if_pos h]
  · rw [if_neg (fun hc => h hc.1), if_neg h]

theorem expOpts_best {tm : TM} {w : Str} (hw : Word w) (h1 : (tm.opts w).length ≤ 1) : expOpts tm w = [best tm w] := by
  rw [expOpts_word hw]
  unfold best
  match h : tm.opts w with
  | [] => simp
  | [o] => simp
  | a :: b :: l => rw [h] at h1; simp at h1

theorem expOpts_many {tm : TM} {w : Str} (hw : Word w) (h1 : ¬ (tm.opts w).length ≤ 1) : ∃ a b l, expOpts tm w = a :: b :: l := by
  rw [expOpts_word hw]
  match h : tm.opts w with
  | [] => rw [h] at h1; simp at h1
  | [o] => rw [h] at h1; simp at h1
  | a :: b :: l => exact ⟨a, b, l, by simp⟩

theorem dictIns_none {d : List (StInfo × Rat)} {k : StInfo} (h : lk d k = none) (s : Rat) : dictIns d k s = put d k s := by
  unfold dictIns; rw [h]

theorem lmState_one {n : Nat} (hn : 2 ≤ n) {w : Str} (hw : Word w) (hb : w ≠ bosStr) : lmState n w ≠ lmState n [] := by
  have hf : fields ' ' w = [w] := fields_join (ws := [w]) (by simpa using hw)
  have e0 : lmState n [] = bosStr := by
    unfold lmState
    rw [show fields ' ' ([] : Str) = [] from rfl]
    show joinWords ([bosStr].drop (1 - (n - 1))) = _
    rw [show 1 - (n - 1) = 0 by omega]; rfl
  rw [e0]
  unfold lmState
  rw [hf]
  show joinWords ([bosStr, w].drop (2 - (n - 1))) ≠ _
  by_cases h2 : n = 2
  · subst h2; exact hb
  · rw [show 2 - (n - 1) = 0 by omega]
    intro hc
    have : ' ' ∈ bosStr := by rw [← hc]; exact join_blank
    revert this; decide

/-- What the search keeps. -/
structure SInv (tm : TM) (n : Nat) (toks : List Str) (k : Nat) (h : Hyp) (d : List (StInfo × Rat)) : Prop where
  pos : nextPos h.cov = k
  wrd : h.words = joinWords ((toks.take k).map (best tm))
  rcb : recombined d (stInfo n h) h.score = false
  keys : ∀ key, lk d key ≠ none → (k = 0 ∧ key = (0, lmState n [])) ∨ key.1 < k

theorem best_word {tm : TM} (h : RecOk tm) {w : Str} (hw : Word w) (hb : w ≠ bosStr) : Word (best tm w) ∧ best tm w ≠ bosStr := by
  unfold best
  match e : tm.opts w with
  | [] => exact ⟨hw, hb⟩
  | o :: os => exact h.opt w o (by rw [e]; exact List.mem_cons_self)

theorem sinv_step {tm : TM} (ht : RecOk tm) {n : Nat} (hn : 2 ≤ n) {toks : List Str} (hw : ∀ w ∈ toks, Word w ∧ w ≠ bosStr) {k : Nat} {h : Hyp}
    {d : List (StInfo × Rat)} (hi : SInv tm n toks k h d) {w : Str} (hk : toks[k]? = some w) (sc : Rat) :
    SInv tm n toks (k + 1) ⟨h.cov ++ [k], newWords h.words (best tm w), sc⟩
      (dictIns d (stInfo n ⟨h.cov ++ [k], newWords h.words (best tm w), sc⟩) sc) := by
  have hww := hw w (List.mem_of_getElem? hk)
  have hbw := best_word ht hww.1 hww.2
  have htake : toks.take (k + 1) = toks.take k ++ [w] := by rw [List.take_add_one, hk]; rfl
  have hwords : newWords h.words (best tm w) = joinWords ((toks.take (k + 1)).map (best tm)) := by
    rw [htake, List.map_append, hi.wrd]
    unfold newWords
    by_cases hk0 : k = 0
    · subst hk0; rfl
    · have hlt := (List.getElem?_eq_some_iff.1 hk).1
      have hne : (toks.take k).map (best tm) ≠ [] := by
        intro hc
        have := congrArg List.length hc
        simp at this
        rcases this with h | h
        · omega
        · rw [h] at hlt; simp at hlt
      have hws : ∀ x ∈ (toks.take k).map (best tm), Word x := by
        intro x hx
        obtain ⟨y, hy, rfl⟩ := List.mem_map.1 hx
        have := hw y (List.mem_of_mem_take hy)
        exact (best_word ht this.1 this.2).1
      have hjn : joinWords ((toks.take k).map (best tm)) ≠ [] := by
        intro hc
        have := fields_join hws
        rw [hc] at this
        exact hne this.symm
      rw [if_neg hjn, List.map_cons, List.map_nil, join_append _ [best tm w] hne (by simp)]; rfl
  have hst : stInfo n ⟨h.cov ++ [k], newWords h.words (best tm w), sc⟩ = (k, lmState n (newWords h.words (best tm w))) := by
    unfold stInfo; rw [List.getLast?_concat]; rfl
  have hnone : lk d (k, lmState n (newWords h.words (best tm w))) = none := by
    apply Classical.byContradiction
    intro hc
    rcases hi.keys _ hc with ⟨h0, h1⟩ | h1
    · subst h0
      have e : newWords h.words (best tm w) = best tm w := by
        have : h.words = [] := by rw [hi.wrd]; rfl
        unfold newWords; rw [if_pos this]
      rw [e] at h1
      exact lmState_one hn hbw.1 hbw.2 (congrArg Prod.snd h1)
    · simp at h1
  rw [hst, dictIns_none hnone]
  refine ⟨nextPos_snoc _ _, hwords, ?_, ?_⟩
  · rw [hst]
    unfold recombined
    rw [AMap.lk_put_self]
    simp
  · intro key hkey
    right
    rw [AMap.lk_put] at hkey
    by_cases e : key = (k, lmState n (newWords h.words (best tm w)))
    · rw [e]; simp
    · rw [if_neg e] at hkey
      rcases hi.keys key hkey with ⟨h0, h1⟩ | h1
      · rw [h1]; simp
      · omega

theorem rec_search {tm : TM} (ht : RecOk tm) (ext : Hyp → Nat → Str → Rat) {n : Nat} (hn : 2 ≤ n) {toks : List Str}
    (hw : ∀ w ∈ toks, Word w ∧ w ≠ bosStr) : ∀ (m k f : Nat) (h : Hyp) (d : List (StInfo × Rat)), k + m = toks.length → m < f →
      SInv tm n toks k h d →
      ((∀ w ∈ toks.drop k, (tm.opts w).length ≤ 1) →
        ∃ h', search tm ext n toks f [h] d = some (some h') ∧ h'.words = joinWords (toks.map (best tm))) ∧
      ((∃ w ∈ toks.drop k, ¬ (tm.opts w).length ≤ 1) → search tm ext n toks f [h] d = none) := by
  intro m
  induction m with
  | zero =>
    intro k f h d hk hf hi
    obtain ⟨f, rfl⟩ : ∃ f', f = f' + 1 := ⟨f - 1, by omega⟩
    have hkl : k = toks.length := by omega
    have hit : iter tm ext n toks [h] d = some (.stop (some h)) := by
      unfold iter getHyp
      simp only
      rw [if_neg (by rw [hi.rcb]; simp)]
      simp only
      rw [if_pos (by unfold complete; rw [hi.pos, hkl]; simp)]
    refine ⟨fun _ => ⟨h, ?_, ?_⟩, ?_⟩
    · rw [search, hit]
    · rw [hi.wrd, hkl, List.take_length]
    · rintro ⟨w, hm, _⟩
      rw [hkl, List.drop_length] at hm
      cases hm
  | succ m ih =>
    intro k f h d hk hf hi
    obtain ⟨f, rfl⟩ : ∃ f', f = f' + 1 := ⟨f - 1, by omega⟩
    have hlt : k < toks.length := by omega
    have hgk : toks[k]? = some toks[k] := List.getElem?_eq_getElem hlt
    have hwk := hw _ (List.getElem_mem hlt)
    have hdrop : toks.drop k = toks[k] :: toks.drop (k + 1) := List.drop_eq_getElem_cons hlt
    have hexp := rec_exp ht ext (fun w hm => (hw w hm).1) (hy := h) (w := toks[k]) (by rw [hi.pos]; exact hgk)
    rw [hi.pos] at hexp
    have hit : iter tm ext n toks [h] d = match insAll n (allExp tm ext toks h) ([], d) with
      | some (heap', d') => some (.cont heap' d')
      | none => none := by
      unfold iter getHyp
      simp only
      rw [if_neg (by rw [hi.rcb]; simp)]
      simp only
      rw [if_neg (by unfold complete; rw [hi.pos]; simp; omega)] <;> rfl
    by_cases h1 : (tm.opts toks[k]).length ≤ 1
    · rw [hexp, expOpts_best hwk.1 h1, List.map_cons, List.map_nil, insAll_one] at hit
      simp only at hit
      have hi' := sinv_step ht hn hw hi hgk (h.score + ext h k (best tm toks[k]))
      obtain ⟨i1, i2⟩ := ih (k + 1) f _ _ (by omega) (by omega) hi'
      refine ⟨fun hall => ?_, ?_⟩
      · rw [search, hit]
        exact i1 fun w hm => hall w (by rw [hdrop]; exact List.mem_cons_of_mem _ hm)
      · rintro ⟨w, hm, hlen⟩
        rw [search, hit]
        rw [hdrop] at hm
        rcases List.mem_cons.1 hm with rfl | hm
        · exact absurd h1 hlen
        · exact i2 ⟨w, hm, hlen⟩
    · obtain ⟨a, b, l, he⟩ := expOpts_many hwk.1 h1
      rw [hexp, he, List.map_cons, List.map_cons, insAll_two] at hit
      refine ⟨fun hall => ?_, fun _ => ?_⟩
      · exact absurd (hall toks[k] (by rw [hdrop]; exact List.mem_cons_self)) h1
      · rw [search, hit]

theorem rec_opts (lc : Str → Str) (h : List Str) (x t : Str) : t ∈ (recTM lc h).opts x ↔ t ∈ h ∧ lc t = x := by
  unfold recTM
  rw [mem_opts_run]
  constructor
  · rintro ⟨c, hm⟩
    obtain ⟨w, hw, e⟩ := List.mem_map.1 hm
    simp only [Prod.mk.injEq] at e
    obtain ⟨e1, e2, _⟩ := e
    subst e2
    exact ⟨hw, e1⟩
  · rintro ⟨h1, h2⟩
    exact ⟨1, List.mem_map.2 ⟨t, h1, by rw [h2]⟩⟩

theorem opts_le_one (lc : Str → Str) (h : List Str) (x : Str) : ((recTM lc h).opts x).length ≤ 1 ↔ OneCasing lc h x := by
  have hn : ((recTM lc h).opts x).Nodup := opts_nodup (inv_run _ _ inv_empty) x
  have hm := rec_opts lc h x
  unfold OneCasing
  generalize (recTM lc h).opts x = l at hn hm
  constructor
  · intro hl a ha b hb h1 h2
    have ma := (hm a).2 ⟨ha, h1⟩
    have mb := (hm b).2 ⟨hb, h2⟩
    match l, hl with
    | [], _ => cases ma
    | [o], _ => rw [List.mem_singleton.1 ma, List.mem_singleton.1 mb]
  · intro hc
    match l with
    | [] => simp
    | [o] => simp
    | a :: b :: l =>
      exfalso
      have ha := (hm a).1 (by simp)
      have hb := (hm b).1 (by simp)
      have := hc a ha.1 b hb.1 ha.2 hb.2
      rw [this] at hn
      simp at hn

theorem best_cased (lc : Str → Str) (h : List Str) {x : Str} (h1 : OneCasing lc h x) : best (recTM lc h) x = cased lc h x := by
  have hm := rec_opts lc h x
  unfold best cased
  cases hf : h.find? fun a => decide (lc a = x) with
  | none =>
    have : (recTM lc h).opts x = [] := by
      rw [List.eq_nil_iff_forall_not_mem]
      intro t ht
      have := (hm t).1 ht
      rw [List.find?_eq_none] at hf
      exact hf t this.1 (by simpa using this.2)
    rw [this]; rfl
  | some a =>
    have ha : a ∈ h := List.mem_of_find?_eq_some hf
    have hb : lc a = x := by simpa using List.find?_some hf
    have hma := (hm a).2 ⟨ha, hb⟩
    match e : (recTM lc h).opts x with
    | [] => rw [e] at hma; cases hma
    | o :: os =>
      have ho := (hm o).1 (by rw [e]; exact List.mem_cons_self)
      show o = a
      exact h1 o ho.1 a ha ho.2 hb

/-- The full claim: every line is recased. -/
def C256_full : Prop := ∀ (lc : Str → Str) (h : List Str) (ext : Hyp → Nat → Str → Rat) (n : Nat) (ws : List Str), 2 ≤ n → ws.length < 100000 →
  (∀ w ∈ h, Word w ∧ Word (lc w) ∧ w ≠ "<bos>".toList) → (∀ w ∈ ws, Word w ∧ w ≠ "<bos>".toList) →
  ∃ out : List Str, recaseLine (recTM lc h) ext n (joinWords ws) = some (joinWords out) ∧ out.length = ws.length ∧
    ∀ p ∈ out.zip ws, p.1 = p.2 ∨ (p.1 ∈ h ∧ lc p.1 = p.2)

/-- Recasing with a trained model of bigrams or more. A line whose words have been seen with one casing at most gets, for each word, the casing
seen, or the word itself; a line with a word that has been seen with two casings ends the program with an exception, and the lines from it on
are lost. Missing: such lines (`C256_counterexample`). -/
theorem C256_recase_partial (lc : Str → Str) (h : List Str) (ext : Hyp → Nat → Str → Rat) (n : Nat) (hn : 2 ≤ n)
    (hh : ∀ w ∈ h, Word w ∧ Word (lc w) ∧ w ≠ "<bos>".toList) (ws : List Str) (hl : ws.length < 100000)
    (hw : ∀ w ∈ ws, Word w ∧ w ≠ "<bos>".toList) :
    ((∀ x ∈ ws, OneCasing lc h x) → recaseLine (recTM lc h) ext n (joinWords ws) = some (joinWords (ws.map (cased lc h)))) ∧
    ((∃ x ∈ ws, ¬ OneCasing lc h x) → recaseLine (recTM lc h) ext n (joinWords ws) = none ∧
      ∀ pre post, (∀ l ∈ pre, recaseLine (recTM lc h) ext n l ≠ none) →
        (recase (recTM lc h) ext n (pre ++ joinWords ws :: post)).1 = pre.filterMap (recaseLine (recTM lc h) ext n) ∧
        (recase (recTM lc h) ext n (pre ++ joinWords ws :: post)).2 = false) := by
  have hf : fields ' ' (joinWords ws) = ws := fields_join fun w hm => (hw w hm).1
  have ht : RecOk (recTM lc h) := by
    constructor
    · intro s hs
      obtain ⟨o, ho⟩ := List.exists_mem_of_ne_nil _ hs
      obtain ⟨h1, h2⟩ := (rec_opts lc h s o).1 ho
      rw [← h2]; exact (hh o h1).2.1
    · intro s o ho
      obtain ⟨h1, _⟩ := (rec_opts lc h s o).1 ho
      exact ⟨(hh o h1).1, (hh o h1).2.2⟩
  have hi : SInv (recTM lc h) n ws 0 Hyp.init (dictIns (dictIns [] (stInfo n Hyp.init) 0) (stInfo n Hyp.init) 0) := by
    have e : dictIns (dictIns [] (stInfo n Hyp.init) 0) (stInfo n Hyp.init) 0 = [((0, lmState n []), 0)] := by
      have h1 : dictIns [] (stInfo n Hyp.init) 0 = [((0, lmState n []), 0)] := rfl
      rw [h1]
      unfold dictIns
      have h2 : lk [((0, lmState n []), (0 : Rat))] (stInfo n Hyp.init) = some 0 := by
        show lk [((0, lmState n []), (0 : Rat))] (0, lmState n []) = some 0
        simp [lk]
      rw [h2]
      simp
    rw [e]
    refine ⟨rfl, rfl, ?_, ?_⟩
    · have h2 : lk [((0, lmState n []), (0 : Rat))] (stInfo n Hyp.init) = some 0 := by
        show lk [((0, lmState n []), (0 : Rat))] (0, lmState n []) = some 0
        simp [lk]
      unfold recombined
      rw [h2]
      simp [Hyp.init]
    · intro key hk
      left
      refine ⟨rfl, ?_⟩
      by_cases e : (0, lmState n []) = key
      · exact e.symm
      · rw [lk, if_neg e] at hk
        exact absurd rfl hk
  obtain ⟨s1, s2⟩ := rec_search ht ext hn hw ws.length 0 100000 Hyp.init _ (by omega) hl hi
  rw [List.drop_zero] at s1 s2
  have p2 : (∃ x ∈ ws, ¬ OneCasing lc h x) → recaseLine (recTM lc h) ext n (joinWords ws) = none := by
    rintro ⟨x, hx, hc⟩
    have := s2 ⟨x, hx, fun h1 => hc ((opts_le_one lc h x).1 h1)⟩
    unfold recaseLine
    rw [hf, if_neg (by rintro rfl; cases hx)]
    unfold decode
    rw [this]
  refine ⟨fun hall => ?_, fun hex => ⟨p2 hex, ?_⟩⟩
  · obtain ⟨h', e1, e2⟩ := s1 fun w hm => (opts_le_one lc h w).2 (hall w hm)
    unfold recaseLine
    rw [hf]
    by_cases hne : ws = []
    · rw [if_pos hne, hne]; rfl
    · rw [if_neg hne]
      unfold decode
      rw [e1]
      simp only
      rw [e2]
      congr 2
      exact List.map_congr_left fun x hx => best_cased lc h (hall x hx)
  · intro pre post hpre
    induction pre with
    | nil =>
      rw [List.nil_append, recase, p2 hex]
      exact ⟨rfl, rfl⟩
    | cons l pre ih =>
      obtain ⟨i1, i2⟩ := ih fun x hx => hpre x (List.mem_cons_of_mem _ hx)
      rw [List.cons_append, recase]
      cases hlx : recaseLine (recTM lc h) ext n l with
      | none => exact absurd hlx (hpre l List.mem_cons_self)
      | some o =>
        simp only
        rw [i1, List.filterMap_cons_some hlx]
        exact ⟨rfl, i2⟩

/-- The text `a A` has two casings of `a`: the line `a` is not recased. -/
theorem C256_counterexample : ¬ C256_full := by
  intro hc
  have hh : ∀ w ∈ [['a'], ['A']], Word w ∧ Word ((fun _ => ['a']) w) ∧ w ≠ "<bos>".toList := by
    intro w hw
    simp only [List.mem_cons, List.not_mem_nil, or_false] at hw
    rcases hw with rfl | rfl <;> exact ⟨⟨by decide, by decide⟩, ⟨by decide, by decide⟩, by decide⟩
  have hw : ∀ w ∈ [['a']], Word w ∧ w ≠ "<bos>".toList := by
    intro w hw
    rw [List.mem_singleton.1 hw]; exact ⟨⟨by decide, by decide⟩, by decide⟩
  obtain ⟨out, e, _⟩ := hc (fun _ => ['a']) [['a'], ['A']] (fun _ _ _ => 0) 2 [['a']] (by decide) (by decide) hh hw
  have := ((C256_recase_partial (fun _ => ['a']) [['a'], ['A']] (fun _ _ _ => 0) 2 (by decide) hh [['a']] (by decide) hw).2
    ⟨['a'], by simp, fun h1 => by
      have := h1 ['a'] (by simp) ['A'] (by simp) rfl rfl
      revert this; decide⟩).1
  rw [this] at e
  cases e

/-- A line that is recased. -/
example : recaseLine (recTM (fun x => x.map Char.toLower) ["Hello".toList, "World".toList, "World".toList]) (fun _ _ _ => -1) 2 "hello world you".toList =
    some "Hello World you".toList := by
  have h := (C256_recase_partial (fun x => x.map Char.toLower) ["Hello".toList, "World".toList, "World".toList] (fun _ _ _ => -1) 2 (by decide)
    (by intro w hw
        simp only [List.mem_cons, List.not_mem_nil, or_false] at hw
        rcases hw with rfl | rfl | rfl <;> exact ⟨⟨by decide, by decide⟩, ⟨by decide, by decide⟩, by decide⟩)
    ["hello".toList, "world".toList, "you".toList] (by decide)
    (by intro w hw
        simp only [List.mem_cons, List.not_mem_nil, or_false] at hw
        rcases hw with rfl | rfl | rfl <;> exact ⟨⟨by decide, by decide⟩, by decide⟩)).1
    (by unfold OneCasing; decide)
  rw [show joinWords ["hello".toList, "world".toList, "you".toList] = "hello world you".toList by decide] at h
  rw [h]
  decide +kernel

/-! ### Detokenizing -/

theorem getHyp_mem {n : Nat} {heap : List Hyp} {d : List (StInfo × Rat)} {h : Hyp} (he : getHyp n heap d = some (some h)) : h ∈ heap := by
  unfold getHyp at he
  split at he
  · cases he
  · split at he
    · cases he
    · cases he; exact List.mem_singleton.2 rfl
  · cases he

theorem filter_join (l : List Str) : (joinWords l).filter (fun c => c ≠ ' ') = l.flatten.filter (fun c => c ≠ ' ') := by
  induction l with
  | nil => rfl
  | cons w l ih =>
    cases l with
    | nil => simp [joinWords]
    | cons v l =>
      show (w ++ ' ' :: joinWords (v :: l)).filter (fun c => c ≠ ' ') = _
      rw [List.flatten_cons, List.filter_append, List.filter_append, List.filter_cons_of_neg (by simp), ih]

theorem flatten_filter (x : List Str) : (x.filter (fun w => !w.isEmpty)).flatten = x.flatten := by
  induction x with
  | nil => rfl
  | cons a x ih =>
    cases a with
    | nil => simpa using ih
    | cons b a => simpa using ih

theorem fields_chars (l : Str) : (fields ' ' l).flatten = l.filter (fun c => c ≠ ' ') := by
  unfold fields
  rw [flatten_filter]
  induction l with
  | nil => rfl
  | cons c l ih =>
    rw [Awk.cut]
    by_cases h : c = ' '
    · rw [if_pos h, List.filter_cons_of_neg (by simpa using h), List.flatten_cons, ih]; rfl
    · rw [if_neg h, List.filter_cons_of_pos (by simpa using h), ← ih]
      split
      · rename_i he; exact absurd he (Awk.cut_ne_nil _ _)
      · rename_i f r he
        rw [he]; rfl

/-- An expansion that does not raise an exception takes the next token alone. -/
theorem single_exp {tm : TM} {ext : Hyp → Nat → Str → Rat} {toks : List Str} (hw : ∀ w ∈ toks, Word w) {n : Nat} {h : Hyp}
    (hlt : nextPos h.cov < toks.length) {d d' : List (StInfo × Rat)} {heap : List Hyp}
    (hi : insAll n (allExp tm ext toks h) ([], d) = some (heap, d')) : ∀ x ∈ heap, x.cov = h.cov ++ [nextPos h.cov] := by
  have hgk : toks[nextPos h.cov]? = some toks[nextPos h.cov] := List.getElem?_eq_getElem hlt
  have hwk := hw _ (List.getElem_mem hlt)
  obtain ⟨o, os, ho⟩ : ∃ o os, expOpts tm (newSrc toks h (nextPos h.cov)) = o :: os := by
    rw [one_src hgk, expOpts_word hwk]
    match e : tm.opts toks[nextPos h.cov] with
    | [] => exact ⟨toks[nextPos h.cov], [], by simp⟩
    | a :: l => exact ⟨a, l, by simp⟩
  have he : ∃ rest, allExp tm ext toks h = ⟨h.cov ++ [nextPos h.cov], newWords h.words o, h.score + ext h (nextPos h.cov) o⟩ :: rest := by
    unfold allExp
    rw [show (7 : Nat) = 6 + 1 from rfl, List.range_succ_eq_map, List.flatMap_cons, Nat.add_zero, if_pos hlt]
    unfold expand
    rw [ho, List.map_cons, List.cons_append]
    exact ⟨_, rfl⟩
  obtain ⟨rest, he⟩ := he
  rw [he] at hi
  cases rest with
  | nil =>
    rw [insAll_one] at hi
    cases hi
    intro x hx
    rw [List.mem_singleton.1 hx]
  | cons y rest => rw [insAll_two] at hi; cases hi

theorem search_single {tm : TM} {ext : Hyp → Nat → Str → Rat} {n : Nat} {toks : List Str} (hw : ∀ w ∈ toks, Word w) :
    ∀ (k : Nat) (heap : List Hyp) (d : List (StInfo × Rat)), (∀ x ∈ heap, ∃ m, m ≤ toks.length ∧ x.cov = List.range m) →
      ∀ h, search tm ext n toks k heap d = some (some h) → h.cov = List.range toks.length := by
  have hnp : ∀ m, nextPos (List.range m) = m := by
    intro m
    cases m with
    | zero => rfl
    | succ m => rw [List.range_succ, nextPos_snoc]
  intro k
  induction k with
  | zero =>
    intro heap d _ h hs
    rw [search] at hs
    split at hs <;> cases hs
  | succ k ih =>
    intro heap d hok h hs
    rw [search] at hs
    unfold iter at hs
    cases hg : getHyp n heap d with
    | none => rw [hg] at hs; cases hs
    | some r =>
      rw [hg] at hs
      cases r with
      | none => cases hs
      | some y =>
        simp only at hs
        obtain ⟨m, hm, hy⟩ := hok y (getHyp_mem hg)
        by_cases hcm : complete y toks = true
        · rw [if_pos hcm] at hs
          simp only [Option.some.injEq] at hs
          subst hs
          unfold complete at hcm
          rw [hy, hnp] at hcm
          rw [hy, show m = toks.length by simpa using hcm]
        · rw [if_neg hcm] at hs
          have hlt : nextPos y.cov < toks.length := by
            unfold complete at hcm
            rw [hy, hnp] at hcm ⊢
            have : ¬ m = toks.length := by simpa using hcm
            omega
          cases hi : insAll n (allExp tm ext toks y) ([], d) with
          | none => rw [hi] at hs; cases hs
          | some st =>
            obtain ⟨heap', d'⟩ := st
            rw [hi] at hs
            simp only at hs
            refine ih heap' d' (fun x hx => ⟨m + 1, ?_, ?_⟩) h hs
            · rw [hy, hnp] at hlt; omega
            · rw [single_exp hw hlt hi x hx, hy, hnp, List.range_succ]

theorem single_groups (toks : List Str) : ∀ (m left : Nat), left + m = toks.length → detokGroups toks left (List.range' left m) = toks.drop left := by
  intro m
  induction m with
  | zero => intro left h; rw [show left = toks.length by omega, List.drop_length]; rfl
  | succ m ih =>
    intro left h
    have hlt : left < toks.length := by omega
    have e : (toks.drop left).take (left + 1 - left) = [toks[left]] := by
      rw [List.drop_eq_getElem_cons hlt, show left + 1 - left = 1 by omega]; rfl
    rw [List.range'_succ, detokGroups, ih (left + 1) (by omega), e, List.drop_eq_getElem_cons hlt]
    simp

/-- The full claim: every line is detokenized, and the tokens `a b` are written as one word when the model has only seen them so. -/
def C257_full : Prop := ∀ (tm : TM) (ext : Hyp → Nat → Str → Rat) (n : Nat) (tr : Str → Str) (line : Str),
  ∃ out, detokLine tm ext n tr line = some out ∧ (out = line ∨ Grouping (fields ' ' line) out)

/-- Detokenizing, with any models (`tr` gives the internal classes of words). What is printed for a line has the same characters but for
blanks; moreover it is the line itself or its tokens with one blank between them: no tokens are ever joined, as a source of several tokens
that could be used ends the program with an exception. Missing: that every line gets a grouping of its tokens (`C257_counterexample`). -/
theorem C257_detokenize_partial (tm : TM) (ext : Hyp → Nat → Str → Rat) (n : Nat) (tr : Str → Str) (htr : ∀ w, Word w → Word (tr w))
    (line out : Str) (hl : ∀ w ∈ fields ' ' line, Word w) (h : detokLine tm ext n tr line = some out) :
    out.filter (fun c => c ≠ ' ') = line.filter (fun c => c ≠ ' ') ∧ (out = line ∨ out = joinWords (fields ' ' line)) ∧
    (out = line ∨ Grouping (fields ' ' line) out) := by
  have key : out = line ∨ out = joinWords (fields ' ' line) := by
    unfold detokLine at h
    by_cases hf : fields ' ' line = []
    · rw [if_pos hf] at h
      cases h
      right
      rw [hf]; rfl
    · rw [if_neg hf] at h
      cases hd : decode tm ext n ((fields ' ' line).map tr) with
      | none => rw [hd] at h; cases h
      | some r =>
        rw [hd] at h
        cases r with
        | none => cases h; exact Or.inl rfl
        | some hy =>
          simp only [Option.some.injEq] at h
          have hc := search_single (by
            intro w hw
            obtain ⟨v, hv, rfl⟩ := List.mem_map.1 hw
            exact htr v (hl v hv)) 100000 _ _ (by
            intro x hx
            rw [List.mem_singleton.1 hx]; exact ⟨0, Nat.zero_le _, rfl⟩) hy hd
          rw [List.length_map] at hc
          right
          rw [← h]
          unfold obtainDetok
          rw [if_neg hf, hc, List.range_eq_range', single_groups _ _ 0 (by omega), List.drop_zero]
  refine ⟨?_, key, ?_⟩
  · rcases key with rfl | rfl
    · rfl
    · rw [filter_join, fields_chars, List.filter_filter]
      simp
  · rcases key with h | h
    · exact Or.inl h
    · refine Or.inr ⟨(fields ' ' line).map fun w => [w], ?_, ?_, ?_⟩
      · induction fields ' ' line with
        | nil => rfl
        | cons a l ih => rw [List.map_cons, List.flatten_cons, ih]; rfl
      · intro g hg
        obtain ⟨w, _, rfl⟩ := List.mem_map.1 hg
        exact ⟨Nat.le_refl _, by simp⟩
      · rw [h, List.map_map]
        congr 1
        conv => lhs; rw [← List.map_id (fields ' ' line)]
        apply List.map_congr_left
        intro w _
        simp

/-- A model that has only seen `do n't` written as `don't`. -/
def exDetok : TM := TM.empty.run [("do n't".toList, "don't".toList, 1)]

theorem C257_counterexample : ¬ C257_full := by
  intro h
  obtain ⟨out, h1, _⟩ := h exDetok (fun _ _ _ => 0) 2 id "do n't".toList
  have h2 : detokLine exDetok (fun _ _ _ => 0) 2 id "do n't".toList = none := by decide +kernel
  rw [h2] at h1
  cases h1

/-- A line that is printed. -/
example : detokLine exDetok (fun _ _ _ => 0) 2 id "I  do not".toList = some "I do not".toList := by
  decide +kernel

end Thot.Preproc
