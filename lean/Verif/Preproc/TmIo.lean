import Verif.Preproc.TmProps
/-!
C252: the file of the translation model.
-/
namespace Thot.Preproc

open Thot
open Thot.SentHandler (joinWords Word fields_join)
open Thot.Awk (fields)
open Thot.Vocab (showNat)
open Thot.AMap (lk put Distinct)
open Thot.PhrTools (join_append)

/-! ### Specification -/

/-- A phrase: words, none of them the separator, with a blank between consecutive ones. -/
def Phr (x : Str) : Prop := ∃ ws : List Str, ws ≠ [] ∧ (∀ w ∈ ws, Word w ∧ w ≠ "|||".toList) ∧ x = joinWords ws

/-- What is trained: phrases with increments of one. -/
def Trained (h : List (Str × Str × Nat)) : Prop := ∀ e ∈ h, e.2.2 = 1 ∧ Phr e.1 ∧ Phr e.2.1

/-! ### A line -/

theorem step_src_more (l : LSt) (h : l.src = true) (ws : List Str) (hw : ∀ w ∈ ws, w ≠ bar) :
    (ws.foldl (lineStep false) l).src = true ∧ (ws.foldl (lineStep false) l).trgw = l.trgw ∧
    (ws.foldl (lineStep false) l).srcw = ws.foldl (fun a w => a ++ ' ' :: w) l.srcw := by
  induction ws generalizing l with
  | nil => exact ⟨h, rfl, rfl⟩
  | cons w ws ih =>
    have e : lineStep false l w = { l with srcw := l.srcw ++ ' ' :: w, prev := w } := by
      unfold lineStep; rw [if_pos h, if_neg (hw w List.mem_cons_self), if_neg (by simp)]
    rw [List.foldl_cons, e]
    exact ih _ h fun x hx => hw x (List.mem_cons_of_mem _ hx)

theorem step_trg_more (l : LSt) (h : l.src = false) (hp : l.prev ≠ bar) (ws : List Str) (hw : ∀ w ∈ ws, w ≠ bar) :
    (ws.foldl (lineStep false) l).srcw = l.srcw ∧
    (ws.foldl (lineStep false) l).trgw = ws.foldl (fun a w => a ++ ' ' :: w) l.trgw := by
  induction ws generalizing l with
  | nil => exact ⟨rfl, rfl⟩
  | cons w ws ih =>
    have e : lineStep false l w = { l with trgw := l.trgw ++ ' ' :: w, prev := w } := by
      unfold lineStep; rw [if_neg (by simp [h]), if_neg hp]
    rw [List.foldl_cons, e]
    exact ih _ h (hw w List.mem_cons_self) fun x hx => hw x (List.mem_cons_of_mem _ hx)

theorem foldl_join (w : Str) (ws : List Str) : ws.foldl (fun a w => a ++ ' ' :: w) w = joinWords (w :: ws) := by
  induction ws using snoc_ind with
  | h0 => rfl
  | h1 ws v ih =>
    rw [List.foldl_append, ih, ← List.cons_append, join_append (w :: ws) [v] (by simp) (by simp)]; rfl

theorem parse_words {S T : List Str} (hS : S ≠ []) (hT : T ≠ []) (hs : ∀ w ∈ S, w ≠ bar) (ht : ∀ w ∈ T, w ≠ bar) :
    (parseWords (S ++ bar :: T)).srcw = joinWords S ∧ (parseWords (S ++ bar :: T)).trgw = joinWords T := by
  cases S with
  | nil => exact absurd rfl hS
  | cons a S =>
    cases T with
    | nil => exact absurd rfl hT
    | cons b T =>
      have e0 : lineStep true ⟨true, [], [], []⟩ a = ⟨true, a, [], a⟩ := by
        unfold lineStep; rw [if_pos rfl, if_neg (hs a List.mem_cons_self), if_pos rfl]
      have e : parseWords (a :: S ++ bar :: b :: T) =
          T.foldl (lineStep false) (lineStep false (lineStep false (S.foldl (lineStep false) ⟨true, a, [], a⟩) bar) b) := by
        show (S ++ bar :: b :: T).foldl (lineStep false) (lineStep true ⟨true, [], [], []⟩ a) = _
        rw [e0, List.foldl_append]; rfl
      rw [e]
      obtain ⟨h1, h2, h3⟩ := step_src_more ⟨true, a, [], a⟩ rfl S fun w hw => hs w (List.mem_cons_of_mem _ hw)
      generalize S.foldl (lineStep false) ⟨true, a, [], a⟩ = l at h1 h2 h3
      have e1 : lineStep false l bar = { l with src := false, prev := bar } := by
        unfold lineStep; rw [if_pos h1, if_pos rfl]
      have e2 : lineStep false { l with src := false, prev := bar } b = { l with src := false, trgw := b, prev := b } := by
        unfold lineStep; rw [if_neg (by simp), if_pos rfl]
      rw [e1, e2]
      obtain ⟨h4, h5⟩ := step_trg_more { l with src := false, trgw := b, prev := b } rfl (ht b List.mem_cons_self) T
        fun w hw => ht w (List.mem_cons_of_mem _ hw)
      rw [h4, h5]
      refine ⟨?_, foldl_join b T⟩
      show l.srcw = _
      rw [h3]
      exact foldl_join a S

theorem bar_word : Word bar := ⟨by decide, by decide⟩

theorem load_line (m : TM) {s t : Str} (hs : Phr s) (ht : Phr t) (c : Nat) :
    loadLine m (s ++ " ||| ".toList ++ t ++ ' ' :: showNat c) = m.increase s t c := by
  obtain ⟨S, hS, hS', rfl⟩ := hs
  obtain ⟨T, hT, hT', rfl⟩ := ht
  have e : joinWords S ++ " ||| ".toList ++ joinWords T ++ ' ' :: showNat c = joinWords ((S ++ bar :: T) ++ [showNat c]) := by
    rw [join_append (S ++ bar :: T) [showNat c] (by simp) (by simp), join_append S (bar :: T) hS (by simp)]
    have : joinWords (bar :: T) = bar ++ ' ' :: joinWords T := by
      have := join_append [bar] T (by simp) hT
      exact this
    rw [this]
    simp [bar, joinWords]
  have hf : fields ' ' (joinWords S ++ " ||| ".toList ++ joinWords T ++ ' ' :: showNat c) = (S ++ bar :: T) ++ [showNat c] := by
    rw [e]
    apply fields_join
    intro w hw
    rcases List.mem_append.1 hw with hw | hw
    · rcases List.mem_append.1 hw with hw | hw
      · exact (hS' w hw).1
      · rcases List.mem_cons.1 hw with rfl | hw
        · exact bar_word
        · exact (hT' w hw).1
    · rw [List.mem_singleton.1 hw]; exact AligFile.word_showNat c
  unfold loadLine
  rw [hf, List.dropLast_concat]
  obtain ⟨h1, h2⟩ := parse_words hS hT (fun w hw => (hS' w hw).2) (fun w hw => (hT' w hw).2)
  have h3 : ((S ++ bar :: T) ++ [showNat c]).getLastD [] = showNat c := by
    generalize S ++ bar :: T = x
    simp
  rw [h1, h2, h3, Vocab.atoiDigits_showNat]

/-- The entries in the order they are printed. -/
def flat (m : TM) : List (Str × Str × Nat) := m.st.flatMap fun e => e.2.map fun o => (e.1, o.1, o.2)

theorem load_print {m : TM} (h : ∀ e ∈ m.st, Phr e.1 ∧ ∀ o ∈ e.2, Phr o.1) : TM.load m.print = TM.empty.run (flat m) := by
  have e : m.print = (flat m).map fun x => x.1 ++ " ||| ".toList ++ x.2.1 ++ ' ' :: showNat x.2.2 := by
    unfold TM.print flat
    rw [List.map_flatMap]
    congr 1; funext e
    rw [List.map_map]; rfl
  have hp : ∀ x ∈ flat m, Phr x.1 ∧ Phr x.2.1 := by
    intro x hx
    obtain ⟨e, he, hx⟩ := List.mem_flatMap.1 hx
    obtain ⟨o, ho, rfl⟩ := List.mem_map.1 hx
    exact ⟨(h e he).1, (h e he).2 o ho⟩
  unfold TM.load
  rw [e]
  generalize flat m = l at hp
  generalize TM.empty = a
  induction l generalizing a with
  | nil => rfl
  | cons x l ih =>
    rw [List.map_cons, List.foldl_cons, load_line a (hp x List.mem_cons_self).1 (hp x List.mem_cons_self).2]
    exact ih (fun y hy => hp y (List.mem_cons_of_mem _ hy)) _

/-! ### The whole file -/

/-- What is loaded of the options of a source: the first count is kept and the others are one. -/
def loaded : List (Str × Nat) → List (Str × Nat)
  | [] => []
  | o :: os => o :: os.map fun x => (x.1, 1)

theorem loaded_keys (os : List (Str × Nat)) : (loaded os).map Prod.fst = os.map Prod.fst := by
  cases os with
  | nil => rfl
  | cons o os => simp [loaded, List.map_map, Function.comp_def]

theorem lk_snoc {V : Type} (m : List (Str × V)) (k : Str) (v : V) (h : k ∉ m.map Prod.fst) : lk (m ++ [(k, v)]) k = some v := by
  induction m with
  | nil => simp [lk]
  | cons a m ih =>
    rw [List.map_cons, List.mem_cons, not_or] at h
    rw [List.cons_append, lk, if_neg (fun e => h.1 e.symm)]
    exact ih h.2

theorem put_snoc {V : Type} (m : List (Str × V)) (k : Str) (v w : V) (h : k ∉ m.map Prod.fst) : put (m ++ [(k, v)]) k w = m ++ [(k, w)] := by
  induction m with
  | nil => simp [put]
  | cons a m ih =>
    rw [List.map_cons, List.mem_cons, not_or] at h
    rw [List.cons_append, put, if_neg (fun e => h.1 e.symm), ih h.2, List.cons_append]

/-- The options of a new source. -/
theorem run_opts (m : TM) (s : Str) (hs : s ∉ m.st.map Prod.fst) (hs2 : s ∉ m.s.map Prod.fst) (o : Str × Nat) (os : List (Str × Nat))
    (hd : Distinct (o :: os)) : m.run ((o :: os).map fun x => (s, x.1, x.2)) =
      ⟨m.st ++ [(s, loaded (o :: os))], m.s ++ [(s, ((o :: os).map Prod.snd).sum)]⟩ := by
  induction os using snoc_ind with
  | h0 =>
    show m.increase s o.1 o.2 = _
    unfold TM.increase
    rw [AMap.lk_none_iff.2 hs]
    simp only
    rw [AMap.put_of_none _ (AMap.lk_none_iff.2 hs), AMap.put_of_none _ (AMap.lk_none_iff.2 hs2)]
    simp [loaded]
  | h1 os p ih =>
    have hd1 : Distinct (o :: os) := by
      unfold Distinct at hd ⊢
      refine hd.sublist (List.Sublist.map _ ?_)
      exact List.Sublist.cons_cons _ (List.sublist_append_left os [p])
    have hp : p.1 ∉ (o :: os).map Prod.fst := by
      unfold Distinct at hd
      rw [← List.cons_append, List.map_append] at hd
      intro hc
      exact (List.nodup_append.1 hd).2.2 _ hc p.1 (by simp) rfl
    rw [← List.cons_append, List.map_append]
    show m.run (_ ++ [(s, p.1, p.2)]) = _
    rw [run_snoc, ih hd1]
    unfold TM.increase
    simp only [lk_snoc _ _ _ hs]
    rw [AMap.lk_none_iff.2 (by rw [loaded_keys]; exact hp)]
    simp only [lk_snoc _ _ _ hs2]
    rw [put_snoc _ _ _ _ hs, put_snoc _ _ _ _ hs2, AMap.put_of_none _ (AMap.lk_none_iff.2 (by rw [loaded_keys]; exact hp))]
    simp [loaded]
    omega

theorem run_append (m : TM) (h h' : List (Str × Str × Nat)) : m.run (h ++ h') = (m.run h).run h' := List.foldl_append

theorem run_flat (l : List (Str × List (Str × Nat))) (hd : Distinct l) (ho : ∀ e ∈ l, Distinct e.2 ∧ e.2 ≠ []) :
    TM.empty.run (l.flatMap fun e => e.2.map fun o => (e.1, o.1, o.2)) =
      ⟨l.map fun e => (e.1, loaded e.2), l.map fun e => (e.1, (e.2.map Prod.snd).sum)⟩ := by
  induction l using snoc_ind with
  | h0 => rfl
  | h1 l e ih =>
    have hd1 : Distinct l := by
      unfold Distinct at hd ⊢
      exact hd.sublist (List.Sublist.map _ (List.sublist_append_left l [e]))
    have he : e.1 ∉ l.map Prod.fst := by
      unfold Distinct at hd
      rw [List.map_append] at hd
      intro hc
      exact (List.nodup_append.1 hd).2.2 _ hc e.1 (by simp) rfl
    have k1 : (l.map fun e => (e.1, loaded e.2)).map Prod.fst = l.map Prod.fst := by rw [List.map_map]; rfl
    have k2 : (l.map fun e => (e.1, (e.2.map Prod.snd).sum)).map Prod.fst = l.map Prod.fst := by rw [List.map_map]; rfl
    obtain ⟨h1, h2⟩ := ho e (by simp)
    rw [List.flatMap_append, run_append, ih hd1 fun x hx => ho x (by simp [hx])]
    obtain ⟨s, os⟩ := e
    cases os with
    | nil => exact absurd rfl h2
    | cons o os =>
      have := run_opts ⟨l.map fun e => (e.1, loaded e.2), l.map fun e => (e.1, (e.2.map Prod.snd).sum)⟩ s (by rw [k1]; exact he)
        (by rw [k2]; exact he) o os h1
      simp only [List.flatMap_cons, List.flatMap_nil, List.append_nil, List.map_append]
      exact this

theorem lk_map {V W : Type} (f : V → W) (l : List (Str × V)) (k : Str) : lk (l.map fun e => (e.1, f e.2)) k = (lk l k).map f := by
  induction l with
  | nil => rfl
  | cons a l ih =>
    rw [List.map_cons, lk, lk]
    by_cases e : a.1 = k
    · rw [if_pos e, if_pos e]; rfl
    · rw [if_neg e, if_neg e]; exact ih

theorem lk_loaded (os : List (Str × Nat)) (t : Str) : (lk (loaded os) t).getD 0 =
    if (os.map Prod.fst).head? = some t then (lk os t).getD 0 else if t ∈ os.map Prod.fst then 1 else 0 := by
  cases os with
  | nil => rfl
  | cons o os =>
    show (lk (o :: os.map fun x => (x.1, 1)) t).getD 0 = _
    rw [lk]
    by_cases e : o.1 = t
    · rw [if_pos e, if_pos (by simp [e]), lk, if_pos e]
    · rw [if_neg e, if_neg (by simpa using e), lk_map (fun _ => (1 : Nat))]
      have : t ∈ (o :: os).map Prod.fst ↔ t ∈ os.map Prod.fst := by
        rw [List.map_cons, List.mem_cons]
        exact ⟨fun h => h.resolve_left fun h => e h.symm, Or.inr⟩
      cases h : lk os t with
      | none => rw [if_neg fun hc => AMap.lk_none_iff.1 h (this.1 hc)]; rfl
      | some k =>
        have hm : t ∈ os.map Prod.fst := by
          apply Classical.byContradiction
          intro hn; rw [AMap.lk_none_iff.2 hn] at h; cases h
        rw [if_pos (this.2 hm)]; rfl

theorem sum_lk {os : List (Str × Nat)} (hd : Distinct os) : ((os.map Prod.fst).map fun t => (lk os t).getD 0).sum = (os.map Prod.snd).sum := by
  rw [List.map_map]
  congr 1
  apply List.map_congr_left
  intro o ho
  show (lk os o.1).getD 0 = o.2
  rw [(AMap.lk_some_iff hd).2 (show (o.1, o.2) ∈ os from ho)]; rfl

theorem trained_phr {h : List (Str × Str × Nat)} (ht : Trained h) : ∀ e ∈ (TM.empty.run h).st, Phr e.1 ∧ ∀ o ∈ e.2, Phr o.1 := by
  have hi := inv_run h _ inv_empty
  intro e he
  have hl : lk (TM.empty.run h).st e.1 = some e.2 := (AMap.lk_some_iff hi.dst).2 he
  have ho : ∀ o ∈ e.2, ∃ c, (e.1, o.1, c) ∈ h := by
    intro o ho
    apply (mem_opts_run h e.1 o.1).1
    unfold TM.opts
    rw [hl]
    exact List.mem_map.2 ⟨o, ho, rfl⟩
  refine ⟨?_, fun o hm => ?_⟩
  · obtain ⟨o, ho'⟩ := List.exists_mem_of_ne_nil _ (hi.dopt e he).2
    obtain ⟨c, hc⟩ := ho o ho'
    exact (ht _ hc).2.1
  · obtain ⟨c, hc⟩ := ho o hm
    exact (ht _ hc).2.2

/-- The full claim: a trained model that is printed and loaded has the same counts. -/
def C252_full : Prop := ∀ (h : List (Str × Str × Nat)), Trained h → ∀ s t,
  (TM.load (TM.empty.run h).print).srcCount s = (TM.empty.run h).srcCount s ∧
  (TM.load (TM.empty.run h).print).count s t = (TM.empty.run h).count s t

/-- A trained model that is printed and loaded has the same sources, the same options in the same order and the same counts of sources. The
count of the first option of a source is kept and those of the others become one; so the counts of the pairs are all kept just when those of
the other options were one. Missing: the other counts (`C252_counterexample`). -/
theorem C252_print_load_partial (h : List (Str × Str × Nat)) (ht : Trained h) (s : Str) :
    (TM.load (TM.empty.run h).print).opts s = (TM.empty.run h).opts s ∧
    (TM.load (TM.empty.run h).print).srcCount s = (TM.empty.run h).srcCount s ∧
    (∀ t, (TM.load (TM.empty.run h).print).count s t =
      if ((TM.empty.run h).opts s).head? = some t then (TM.empty.run h).count s t else if t ∈ (TM.empty.run h).opts s then 1 else 0) ∧
    ((∀ t, (TM.load (TM.empty.run h).print).count s t = (TM.empty.run h).count s t) ↔
      ∀ t ∈ ((TM.empty.run h).opts s).tail, (TM.empty.run h).count s t = 1) := by
  have hi := inv_run h _ inv_empty
  have e : TM.load (TM.empty.run h).print = ⟨(TM.empty.run h).st.map fun e => (e.1, loaded e.2),
      (TM.empty.run h).st.map fun e => (e.1, (e.2.map Prod.snd).sum)⟩ := by
    rw [load_print (trained_phr ht)]
    exact run_flat _ hi.dst hi.dopt
  have hopts : (TM.load (TM.empty.run h).print).opts s = (TM.empty.run h).opts s := by
    rw [e]
    unfold TM.opts
    rw [lk_map loaded]
    cases lk (TM.empty.run h).st s with
    | none => rfl
    | some os => exact loaded_keys os
  have hcount : ∀ t, (TM.load (TM.empty.run h).print).count s t =
      if ((TM.empty.run h).opts s).head? = some t then (TM.empty.run h).count s t else if t ∈ (TM.empty.run h).opts s then 1 else 0 := by
    intro t
    rw [e]
    unfold TM.opts TM.count
    rw [lk_map loaded]
    cases lk (TM.empty.run h).st s with
    | none => simp
    | some os => exact lk_loaded os t
  refine ⟨hopts, ?_, hcount, ?_⟩
  · have h1 : ∀ x ∈ h, x.2.2 = 1 := fun x hx => (ht x hx).1
    rw [src_run, ← srcSum_pairs h s _ (opts_nodup hi s) fun t c hm => (mem_opts_run h s t).2 ⟨c, hm⟩]
    rw [show (pairSum h s) = (TM.empty.run h).count s from funext fun t => (count_run h h1 s t).symm]
    rw [e]
    unfold TM.srcCount TM.opts TM.count
    rw [lk_map (fun os : List (Str × Nat) => (os.map Prod.snd).sum)]
    cases hl : lk (TM.empty.run h).st s with
    | none => rfl
    | some os =>
      have := (hi.dopt (s, os) ((AMap.lk_some_iff hi.dst).1 hl)).1
      exact (sum_lk this).symm
  · have hn := opts_nodup hi s
    have hz : ∀ t, t ∉ (TM.empty.run h).opts s → (TM.empty.run h).count s t = 0 := by
      intro t hm
      unfold TM.count
      unfold TM.opts at hm
      cases h3 : lk (TM.empty.run h).st s with
      | none => rfl
      | some os =>
        rw [h3] at hm
        simp only
        rw [AMap.lk_none_iff.2 hm]; rfl
    generalize (TM.empty.run h).opts s = os at hcount hn hz
    cases os with
    | nil =>
      refine ⟨fun _ t ht => (by cases ht), fun _ t => ?_⟩
      rw [hcount, if_neg (by simp), if_neg (by simp), hz t (by simp)]
    | cons o os =>
      obtain ⟨n1, n2⟩ := List.nodup_cons.1 hn
      constructor
      · intro hc t hm
        have hm : t ∈ os := hm
        rw [← hc t, hcount t, if_neg (fun e => n1 (by
          have : o = t := by simpa using e
          rw [this]; exact hm)), if_pos (List.mem_cons_of_mem _ hm)]
      · intro hc t
        rw [hcount t]
        by_cases e : o = t
        · rw [if_pos (by simp [e])]
        · rw [if_neg (by simpa using e)]
          by_cases hm : t ∈ o :: os
          · rw [if_pos hm, hc t ((List.mem_cons.1 hm).resolve_left fun h => e h.symm)]
          · rw [if_neg hm, hz t hm]

/-- A word seen once in lower case and twice capitalized. -/
def exTrain : List (Str × Str × Nat) := [(['a'], ['a'], 1), (['a'], ['A'], 1), (['a'], ['A'], 1)]

theorem exTrained : Trained exTrain := by
  have h : ∀ c : Char, c ≠ ' ' → c ≠ '\n' → c ≠ '\x00' → Phr [c] := by
    intro c h1 h2 h3
    refine ⟨[[c]], by simp, ?_, rfl⟩
    intro w hw
    rw [List.mem_singleton.1 hw]
    exact ⟨⟨by simp, by intro d hd; rw [List.mem_singleton.1 hd]; exact ⟨h1, h2, h3⟩⟩, by simp⟩
  intro e he
  simp only [exTrain, List.mem_cons, List.not_mem_nil, or_false] at he
  rcases he with rfl | rfl | rfl <;> exact ⟨rfl, h _ (by decide) (by decide) (by decide), h _ (by decide) (by decide) (by decide)⟩

/-- The second casing, seen twice, is loaded with a count of one. -/
theorem C252_counterexample : ¬ C252_full := by
  intro h
  have h1 := (h exTrain exTrained ['a'] ['A']).2
  rw [(C252_print_load_partial exTrain exTrained ['a']).2.2.1] at h1
  revert h1
  decide +kernel

end Thot.Preproc
