import Verif.NbTools.Segm
/-!
C272: the entries of an n-best list that honour the constraints of the sentence.
-/
namespace Thot.NbTools

open Thot
open Thot.SentHandler (joinWords Word fields_join)
open Thot.Awk (fields)
open Thot.Vocab (showNat)

/-! ### Specification -/

/-- The arcs of the path of an entry translate separate parts of the source sentence, and their words are its translation. -/
structure NbEntry.Derives (cov : Nat → List Bool) (x : NbEntry) : Prop where
  words : x.entry.trans = x.arcs.flatMap (·.words)
  tabs : ∀ w ∈ x.entry.trans, '\t' ∉ w
  disj : ∀ (i j : Nat) (a b : GArc) (s t : Nat × Nat), x.arcs[i]? = some a → x.arcs[j]? = some b → i ≠ j → SegmOf cov a s → SegmOf cov b t →
    ¬ ∃ p, (s.1 ≤ p ∧ p ≤ s.2) ∧ t.1 ≤ p ∧ p ≤ t.2
  small : x.entry.trans.length < 2^31 ∧ ∀ a ∈ x.arcs, (cov a.d).length < 2^31

/-- Every constrained phrase whose first word is translated by an arc is the whole phrase of the arc, with the words of the constraint. -/
def Honoured (d : Meta.MD) (cov : Nat → List Bool) (x : NbEntry) : Prop :=
  ∀ c ∈ d.srcPhrTransMap, ∀ a ∈ x.arcs, ∀ s : Nat × Nat, SegmOf cov a s → s.1 ≤ c.1.1 → c.1.1 ≤ s.2 → s = c.1 ∧ a.words = c.2

open Classical in
/-- Full statement of C272: the entries that honour the constraints of the sentence are printed. -/
def C272_full : Prop := ∀ (md : W → Meta.MD) (cov : Nat → List Bool) (wg : List GArc) (idx : List (Nat × W)) (xs : List NbEntry)
  (h g1 g2 k1 k2 k3 i2 : W) (src : List W),
  (∀ a ∈ wg, a.Ok ∧ ∃ p, Covers cov a p) → (∀ i ∈ idx, cov i.1 ≠ []) → (∀ x ∈ xs, x.Ok wg idx ∧ x.Derives cov) →
  (∀ a ∈ wg, ∀ b ∈ wg, a.o = b.o → a.d = b.d → a.words.length = b.words.length) → (∀ w ∈ k1 :: k2 :: k3 :: src, Word w) →
  filterNbl md (h :: xs.map fun x => entryLine x.entry) (g1 :: g2 :: wg.map arcLine)
      (joinWords (k1 :: k2 :: k3 :: src) :: i2 :: idx.map (idxLine cov)) =
    some (h :: (xs.filter fun x => decide (Honoured (md (joinWords src)) cov x)).map fun x => entryLine x.entry)

/-! ### Texts -/

theorem join_app (a b : List W) (ha : a ≠ []) (hb : b ≠ []) : joinWords (a ++ b) = joinWords a ++ ' ' :: joinWords b := by
  induction a with
  | nil => exact absurd rfl ha
  | cons w a ih =>
    cases a with
    | nil =>
      cases b with
      | nil => exact absurd rfl hb
      | cons v b => rfl
    | cons u a =>
      show w ++ ' ' :: joinWords (u :: a ++ b) = (w ++ ' ' :: joinWords (u :: a)) ++ ' ' :: joinWords b
      rw [ih (by simp)]; simp

def segToks (s : Nat × Nat) : List W := [['('], showNat s.1, [','], showNat s.2, [')']]

theorem oneSegm_join (s : Nat × Nat) : oneSegm s = joinWords (segToks s) := by
  unfold oneSegm segToks
  have e1 : "( ".toList = ['(', ' '] := rfl
  have e2 : " , ".toList = [' ', ',', ' '] := rfl
  have e3 : " )".toList = [' ', ')'] := rfl
  rw [e1, e2, e3]
  simp [joinWords]

theorem join_segs : ∀ ss : List (Nat × Nat), joinWords (ss.map oneSegm) = joinWords (ss.flatMap segToks) := by
  intro ss
  induction ss with
  | nil => rfl
  | cons s ss ih =>
    rw [List.map_cons, List.flatMap_cons]
    cases ss with
    | nil => rw [List.map_nil, List.flatMap_nil, List.append_nil, ← oneSegm_join]; rfl
    | cons t ss =>
      rw [join_app (segToks s) _ (by simp [segToks]) (by simp [segToks]), ← ih, ← oneSegm_join]; rfl

theorem segmText_toks {ss : List (Nat × Nat)} {cuts : List Nat} (hs : ss ≠ []) (hc : cuts ≠ []) :
    segmText ss cuts = joinWords (Meta.aligTokens ss cuts) := by
  have e : Meta.aligTokens ss cuts = ss.flatMap segToks ++ (['|'] :: cuts.map showNat) := by
    unfold Meta.aligTokens segToks; simp
  have hn : ss.flatMap segToks ≠ [] := by
    cases ss with
    | nil => exact absurd rfl hs
    | cons s ss => simp [segToks]
  rw [e, join_app _ _ hn (by simp), segmText_eq, join_segs]
  have e2 : " | ".toList = [' ', '|', ' '] := rfl
  rw [e2]
  cases cuts with
  | nil => exact absurd rfl hc
  | cons c cuts => simp [joinWords]

theorem joinLoop_eq : ∀ (ws : List W) (r : W), StrProc.joinLoop r ws = if ws = [] then r else r ++ ' ' :: joinWords ws := by
  intro ws
  induction ws with
  | nil => intro r; rfl
  | cons w ws ih =>
    intro r
    show StrProc.joinLoop (r ++ ' ' :: w) ws = _
    rw [ih]
    cases ws with
    | nil => rfl
    | cons v ws => simp [joinWords]

theorem stringVector_join (ws : List W) : StrProc.stringVectorToString ws = joinWords ws := by
  cases ws with
  | nil => rfl
  | cons w ws =>
    show StrProc.joinLoop w ws = _
    rw [joinLoop_eq]
    cases ws <;> rfl

theorem aligLine_eq {ss : List (Nat × Nat)} {cuts : List Nat} (hs : ss ≠ []) (hc : cuts ≠ []) :
    segmText ss cuts = Meta.aligLine ss cuts := by
  rw [segmText_toks hs hc]; unfold Meta.aligLine; rw [stringVector_join]

theorem alig_word (ss : List (Nat × Nat)) (cuts : List Nat) : ∀ t ∈ Meta.aligTokens ss cuts, Word t ∧ t ≠ bars := by
  intro t ht
  unfold Meta.aligTokens at ht
  have hsn : ∀ n, Word (showNat n) ∧ showNat n ≠ bars := fun n => ⟨word_showNat n, fun e => by
    have : '|' ∉ showNat n := not_in_showNat (by decide) n
    rw [e] at this; exact this (by decide)⟩
  have hd : ∀ c : Char, c ≠ ' ' → c ≠ '\n' → c ≠ '\x00' → Word [c] ∧ [c] ≠ bars := fun c h1 h2 h3 => ⟨⟨by simp, by simp [h1, h2, h3]⟩, by simp [bars]⟩
  rcases List.mem_append.1 ht with ht | ht
  · rcases List.mem_append.1 ht with ht | ht
    · obtain ⟨s, _, hs⟩ := List.mem_flatMap.1 ht
      simp only [List.mem_cons, List.not_mem_nil, or_false] at hs
      rcases hs with rfl | rfl | rfl | rfl | rfl
      · exact hd _ (by decide) (by decide) (by decide)
      · exact hsn _
      · exact hd _ (by decide) (by decide) (by decide)
      · exact hsn _
      · exact hd _ (by decide) (by decide) (by decide)
    · rw [List.mem_singleton.1 ht]; exact hd _ (by decide) (by decide) (by decide)
  · obtain ⟨c, _, rfl⟩ := List.mem_map.1 ht
    exact hsn c

/-- The fields of a line with an entry in front. -/
theorem split_line {e : Entry} (h : e.Ok) {s : List W} (hs : e.states = some s) (r : W) :
    splitOn fsep (entryLine e ++ fsep ++ r) = [e.score, joinWords e.feats, joinWords s, joinWords e.trans] ++ splitOn fsep r ∧
    splitOn fsep (entryLine e) = [e.score, joinWords e.feats, joinWords s, joinWords e.trans] := by
  have hsent : ∀ {ws : List W}, Sent ws → bars ∉ fields ' ' (joinWords ws) := fun hw => by rw [sent_fields hw]; exact sent_bars hw
  have h0 : bars ∉ fields ' ' e.score := hsent (ws := [e.score]) h.score
  have hl : entryLine e = e.score ++ fsep ++ (joinWords e.feats ++ fsep ++ (joinWords s ++ fsep ++ joinWords e.trans)) := by
    unfold entryLine; rw [hs, between_eq]; simp
  constructor
  · have : entryLine e ++ fsep ++ r = e.score ++ fsep ++ (joinWords e.feats ++ fsep ++ (joinWords s ++ fsep ++ (joinWords e.trans ++ fsep ++ r))) := by
      rw [hl]; simp
    rw [this, splitOn_clean (by decide) _ _ (clean_words h0), splitOn_clean (by decide) _ _ (clean_words (hsent h.feats)),
      splitOn_clean (by decide) _ _ (clean_words (hsent (h.states s hs))), splitOn_clean (by decide) _ _ (clean_words (hsent h.trans))]
    rfl
  · rw [hl, splitOn_clean (by decide) _ _ (clean_words h0), splitOn_clean (by decide) _ _ (clean_words (hsent h.feats)),
      splitOn_clean (by decide) _ _ (clean_words (hsent (h.states s hs))), splitOn_last _ (no_fsep (hsent h.trans))]

/-! ### The alignment -/

theorem segmOf_unique {cov : Nat → List Bool} {a : GArc} {s t : Nat × Nat} (h1 : SegmOf cov a s) (h2 : SegmOf cov a t) : s = t := by
  obtain ⟨a1, a2, a3⟩ := h1
  obtain ⟨b1, b2, b3⟩ := h2
  have := a3 _ b1
  have := a3 _ b2
  have := b3 _ a1
  have := b3 _ a2
  exact Prod.ext (by omega) (by omega)

theorem length_take_flat (arcs : List GArc) (i : Nat) :
    ((arcs.take i).flatMap (·.words)).length ≤ (arcs.flatMap (·.words)).length := by
  conv => rhs; rw [← List.take_append_drop i arcs, List.flatMap_append, List.length_append]
  omega

theorem take_flat_mono (arcs : List GArc) {i j : Nat} (h : i ≤ j) :
    ((arcs.take i).flatMap (·.words)).length ≤ ((arcs.take j).flatMap (·.words)).length := by
  have := length_take_flat (arcs.take j) i
  rwa [List.take_take, Nat.min_eq_left h] at this

theorem arc_words (arcs : List GArc) (k : Nat) (a : GArc) (h : arcs[k]? = some a) :
    Meta.words (arcs.flatMap (·.words)) ((arcs.take k).flatMap (·.words)).length ((arcs.take (k + 1)).flatMap (·.words)).length = a.words := by
  obtain ⟨hk, rfl⟩ := List.getElem?_eq_some_iff.1 h
  have e : arcs.flatMap (·.words) = (arcs.take k).flatMap (·.words) ++ (arcs[k].words ++ (arcs.drop (k + 1)).flatMap (·.words)) := by
    conv => lhs; rw [← List.take_append_drop k arcs, List.drop_eq_getElem_cons hk, List.flatMap_append, List.flatMap_cons]
  have e2 : ((arcs.take (k + 1)).flatMap (·.words)).length = ((arcs.take k).flatMap (·.words)).length + arcs[k].words.length := by
    rw [List.take_succ_eq_append_getElem hk, List.flatMap_append, List.length_append]; simp
  unfold Meta.words
  rw [e, e2, List.drop_left, Nat.add_sub_cancel_left, List.take_left]

theorem cov_small {cov : Nat → List Bool} {a : GArc} {s : Nat × Nat} (h : SegmOf cov a s) : s.1 < (cov a.d).length ∧ s.2 < (cov a.d).length :=
  ⟨(List.getElem?_eq_some_iff.1 h.1.1).1, (List.getElem?_eq_some_iff.1 h.2.1.1).1⟩

theorem get_pair {α β : Type} {as : List α} {bs : List β} (h : as.length = bs.length) {i : Nat} {b : β} (hb : bs[i]? = some b) :
    ∃ a, as[i]? = some a := by
  obtain ⟨hi, _⟩ := List.getElem?_eq_some_iff.1 hb
  exact ⟨as[i], List.getElem?_eq_some_iff.2 ⟨h ▸ hi, rfl⟩⟩

section
variable {cov : Nat → List Bool} {x : NbEntry} {ss : List (Nat × Nat)} {cuts : List Nat}

theorem alignment (hd : x.Derives cov) (h : Segmentation cov x.arcs ss cuts) : Meta.Alignment ss cuts x.entry.trans := by
  obtain ⟨l1, l2⟩ := h.len
  refine ⟨by rw [l1, l2], ?_, ?_, ?_⟩
  · rw [List.pairwise_iff_getElem]
    intro i j hi hj hij
    rw [h.cut i _ (List.getElem?_eq_getElem hi), h.cut j _ (List.getElem?_eq_getElem hj)]
    exact take_flat_mono _ (by omega)
  · intro c hc
    obtain ⟨i, hi, rfl⟩ := List.getElem_of_mem hc
    rw [h.cut i _ (List.getElem?_eq_getElem hi), hd.words]
    exact length_take_flat _ _
  · intro i j hi hj hij
    rintro ⟨p, p1, p2, p3, p4⟩
    obtain ⟨a, ha⟩ := get_pair l1.symm (List.getElem?_eq_getElem hi)
    obtain ⟨b, hb⟩ := get_pair l1.symm (List.getElem?_eq_getElem hj)
    exact hd.disj i j a b _ _ ha hb hij (h.segm i a _ ha (List.getElem?_eq_getElem hi)) (h.segm j b _ hb (List.getElem?_eq_getElem hj))
      ⟨p, ⟨p1, p2⟩, p3, p4⟩

theorem cutBefore_eq (h : Segmentation cov x.arcs ss cuts) {k : Nat} (hk : k < cuts.length) :
    Meta.cutBefore cuts k = ((x.arcs.take k).flatMap (·.words)).length ∧ cuts.getD k 0 = ((x.arcs.take (k + 1)).flatMap (·.words)).length := by
  constructor
  · unfold Meta.cutBefore
    cases k with
    | zero => rfl
    | succ k =>
      have hk' : k < cuts.length := by omega
      rw [if_neg (by omega), Nat.add_sub_cancel, List.getD_eq_getElem?_getD, List.getElem?_eq_getElem hk']
      exact h.cut k _ (List.getElem?_eq_getElem hk')
  · rw [List.getD_eq_getElem?_getD, List.getElem?_eq_getElem hk]
    exact h.cut k _ (List.getElem?_eq_getElem hk)

theorem good_iff (d : Meta.MD) (hd : x.Derives cov) (h : Segmentation cov x.arcs ss cuts) :
    (∀ c ∈ d.srcPhrTransMap, Meta.Honours ss cuts x.entry.trans c.1 c.2) ↔ Honoured d cov x := by
  obtain ⟨l1, l2⟩ := h.len
  have hw : ∀ (k : Nat) (a : GArc), x.arcs[k]? = some a →
      Meta.words x.entry.trans (Meta.cutBefore cuts k) (cuts.getD k 0) = a.words := by
    intro k a ha
    have hk : k < cuts.length := by rw [l2]; exact (List.getElem?_eq_some_iff.1 ha).1
    rw [(cutBefore_eq h hk).1, (cutBefore_eq h hk).2, hd.words, arc_words _ _ _ ha]
  constructor
  · intro hg c hc a ha s hs h1 h2
    obtain ⟨k, hk, rfl⟩ := List.getElem_of_mem ha
    have hks : k < ss.length := by rw [l1]; exact hk
    have ha? := List.getElem?_eq_getElem hk
    have e : s = ss[k] := segmOf_unique hs (h.segm k _ _ ha? (List.getElem?_eq_getElem hks))
    subst e
    obtain ⟨r1, r2⟩ := hg c hc k hks h1 h2
    exact ⟨r1, by rw [← r2, hw k _ ha?]⟩
  · intro hg c hc k hk h1 h2
    obtain ⟨a, ha⟩ := get_pair l1.symm (List.getElem?_eq_getElem hk)
    obtain ⟨r1, r2⟩ := hg c hc a (List.mem_of_getElem? ha) _ (h.segm k a _ ha (List.getElem?_eq_getElem hk)) h1 h2
    exact ⟨r1, by rw [hw k a ha, r2]⟩

end

/-! ### The loop -/

theorem notSat_ne : verdictLine .satisfied ≠ notSat := by decide

theorem filtLoop_spec {α : Type} (f : α → W) (p : α → Bool) : ∀ (xs : List α) (vs : List Meta.Verdict), vs.length = xs.length →
    (∀ (i : Nat) x, xs[i]? = some x → vs[i]? = some (if p x then .satisfied else .notSatisfied)) →
    filtLoop (xs.map f) (vs.map verdictLine) = (xs.filter p).map f := by
  intro xs
  induction xs with
  | nil => intro vs _ _; rfl
  | cons x xs ih =>
    intro vs hl h
    cases vs with
    | nil => cases hl
    | cons v vs =>
      have h0 := h 0 x rfl
      have hi := ih vs (by simpa using hl) fun i y hy => h (i + 1) y hy
      have hv : v = if p x then .satisfied else .notSatisfied := by
        rw [List.getElem?_cons_zero] at h0; exact Option.some.inj h0
      show (if verdictLine v = notSat then [] else [f x]) ++ filtLoop (xs.map f) (vs.map verdictLine) = _
      rw [hi, hv]
      cases hp : p x with
      | true => rw [List.filter_cons_of_pos hp, if_pos rfl, if_neg notSat_ne]; rfl
      | false => rw [List.filter_cons_of_neg (by simp [hp]),
        if_pos (show verdictLine (if false = true then Meta.Verdict.satisfied else Meta.Verdict.notSatisfied) = notSat from rfl)]; rfl

theorem srcSent_eq {k1 k2 k3 : W} {src : List W} (h : ∀ w ∈ k1 :: k2 :: k3 :: src, Word w) (r : List W) :
    srcSent (joinWords (k1 :: k2 :: k3 :: src) :: r) = joinWords src := by
  unfold srcSent
  rw [List.headD_cons, fields_join h]; rfl

theorem zipWith_map {α β γ δ : Type} (f : α → β → γ) (g : γ → δ) : ∀ (as : List α) (bs : List β),
    (List.zipWith f as bs).map g = List.zipWith (fun a b => g (f a b)) as bs := by
  intro as
  induction as with
  | nil => intro bs; rfl
  | cons a as ih =>
    intro bs
    cases bs with
    | nil => rfl
    | cons b bs => simp [ih]

/-- The check entries. -/
def toCheck (x : NbEntry) (p : List (Nat × Nat) × List Nat) : Meta.Entry := ⟨joinWords x.entry.trans, p.1, p.2⟩

theorem zip_lines {α β γ : Type} (f : α → β → γ) (g : γ → W) (k : α → W) : ∀ (as : List α) (bs : List β), as.length = bs.length →
    (∀ (i : Nat) a b, as[i]? = some a → bs[i]? = some b → g (f a b) = k a) →
    (List.zipWith f as bs).map g = as.map k := by
  intro as
  induction as with
  | nil => intro bs _ _; rfl
  | cons a as ih =>
    intro bs hl h
    cases bs with
    | nil => cases hl
    | cons b bs =>
      rw [List.zipWith_cons_cons, List.map_cons, List.map_cons, h 0 a b rfl rfl, ih bs (by simpa using hl) fun i x y hx hy => h (i + 1) x y hx hy]

theorem zip_same {α β γ δ : Type} (f : α → β → γ) (g : α → β → δ) (u : γ → W) (v : δ → W) : ∀ (as : List α) (bs : List β),
    (∀ (i : Nat) a b, as[i]? = some a → bs[i]? = some b → u (f a b) = v (g a b)) →
    (List.zipWith f as bs).map u = (List.zipWith g as bs).map v := by
  intro as
  induction as with
  | nil => intro bs _; rfl
  | cons a as ih =>
    intro bs h
    cases bs with
    | nil => rfl
    | cons b bs =>
      rw [List.zipWith_cons_cons, List.zipWith_cons_cons, List.map_cons, List.map_cons, h 0 a b rfl rfl, ih bs fun i x y hx hy => h (i + 1) x y hx hy]

theorem tokens_join {ws : List W} (hw : ∀ w ∈ ws, Word w) (ht : ∀ w ∈ ws, '\t' ∉ w) : StrProc.stringToStringVector (joinWords ws) = ws := by
  rw [← stringVector_join]
  exact StrProc.C15_roundtrip ws fun t h => ⟨(hw t h).1, fun c hc => ⟨((hw t h).2 c hc).1, fun e => ht t h (e ▸ hc)⟩⟩

open Classical in
/-- **C272 (partial).** When every entry has a translation, exactly the entries that honour the constraints of the sentence are printed, in
their order. Missing: an entry without translation, after which nothing is printed (counterexample). -/
theorem C272_filter_partial (md : W → Meta.MD) (cov : Nat → List Bool) (wg : List GArc) (idx : List (Nat × W)) (xs : List NbEntry)
    (h g1 g2 k1 k2 k3 i2 : W) (src : List W)
    (hwg : ∀ a ∈ wg, a.Ok ∧ ∃ p, Covers cov a p) (hidx : ∀ i ∈ idx, cov i.1 ≠ []) (hx : ∀ x ∈ xs, x.Ok wg idx ∧ x.Derives cov)
    (hpar : ∀ a ∈ wg, ∀ b ∈ wg, a.o = b.o → a.d = b.d → a.words.length = b.words.length) (hs : ∀ w ∈ k1 :: k2 :: k3 :: src, Word w)
    (hne : ∀ x ∈ xs, x.entry.trans ≠ []) :
    filterNbl md (h :: xs.map fun x => entryLine x.entry) (g1 :: g2 :: wg.map arcLine)
        (joinWords (k1 :: k2 :: k3 :: src) :: i2 :: idx.map (idxLine cov)) =
      some (h :: (xs.filter fun x => decide (Honoured (md (joinWords src)) cov x)).map fun x => entryLine x.entry) := by
  obtain ⟨out, h1, sc, hl, hseg, rfl⟩ := C268_segm_partial cov wg idx xs h g1 g2 (joinWords (k1 :: k2 :: k3 :: src)) i2 hwg hidx
    (fun x h => (hx x h).1) hpar
  -- the entries for the check
  have hmem : ∀ {i : Nat} {x : NbEntry}, xs[i]? = some x → x ∈ xs := fun h => List.mem_of_getElem? h
  have hsn : ∀ {x : NbEntry} {p : List (Nat × Nat) × List Nat}, x ∈ xs → Segmentation cov x.arcs p.1 p.2 → p.1 ≠ [] ∧ p.2 ≠ [] := by
    intro x p hxm hp
    have := List.length_pos_iff.2 (hx x hxm).1.ne
    obtain ⟨l1, l2⟩ := hp.len
    exact ⟨fun e => by rw [e] at l1; simp at l1; omega, fun e => by rw [e] at l2; simp at l2; omega⟩
  have htok : ∀ x ∈ xs, StrProc.stringToStringVector (joinWords x.entry.trans) = x.entry.trans := fun x hxm =>
    tokens_join (sent_words (hx x hxm).1.entry.trans) (hx x hxm).2.tabs
  have hes : ∀ e ∈ List.zipWith toCheck xs sc, e.Ok := by
    intro e he
    obtain ⟨i, hi, rfl⟩ := List.getElem_of_mem he
    have hi' : i < xs.length ∧ i < sc.length := by rw [List.length_zipWith] at hi; omega
    have ex := List.getElem?_eq_getElem hi'.1
    have hp := hseg i _ _ ex (List.getElem?_eq_getElem hi'.2)
    have hxm := hmem ex
    rw [List.getElem_zipWith]
    refine ⟨?_, (hsn hxm hp).1, ?_, ?_, ?_⟩
    · show StrProc.stringToStringVector (joinWords xs[i].entry.trans) ≠ []
      rw [htok _ hxm]; exact hne _ hxm
    · show Meta.Alignment _ _ (StrProc.stringToStringVector (joinWords xs[i].entry.trans))
      rw [htok _ hxm]; exact alignment (hx _ hxm).2 hp
    · intro s hs'
      obtain ⟨k, hk, rfl⟩ := List.getElem_of_mem (show s ∈ sc[i].1 from hs')
      obtain ⟨a, ha⟩ := get_pair hp.len.1.symm (List.getElem?_eq_getElem hk)
      have h3 := cov_small (hp.segm k a _ ha (List.getElem?_eq_getElem hk))
      have h4 := (hx _ hxm).2.small.2 a (List.mem_of_getElem? ha)
      omega
    · intro c hc
      have := (alignment (hx _ hxm).2 hp).bound c hc
      have := (hx _ hxm).2.small.1
      omega
  obtain ⟨vs, v1, v2, v3⟩ := Meta.C214_verdicts_partial (md (joinWords src)) (List.zipWith toCheck xs sc) hes
  have hts : (xs.map fun x => entryLine x.entry).map (fun ln => (splitOn fsep ln).getD 3 []) = (List.zipWith toCheck xs sc).map (·.line) := by
    rw [List.map_map]
    refine (zip_lines toCheck (·.line) _ xs sc hl.symm ?_).symm
    intro i x p hxi _
    show joinWords x.entry.trans = (splitOn fsep (entryLine x.entry)).getD 3 []
    have hok := (hx x (hmem hxi)).1
    rw [(split_line hok.entry hok.states []).2]; rfl
  have has : (List.zipWith (fun x p => entryLine x.entry ++ " ||| ".toList ++ segmText p.1 p.2) xs sc).map (fun ln => (splitOn fsep ln).getLastD []) =
      (List.zipWith toCheck xs sc).map fun e => Meta.aligLine e.ss e.cuts := by
    refine zip_same _ _ _ _ xs sc ?_
    intro i x p hxi hpi
    have hok := (hx x (hmem hxi)).1
    have hn := hsn (hmem hxi) (hseg i x p hxi hpi)
    show (splitOn fsep (entryLine x.entry ++ fsep ++ segmText p.1 p.2)).getLastD [] = Meta.aligLine p.1 p.2
    rw [(split_line hok.entry hok.states _).1, ← aligLine_eq hn.1 hn.2, splitOn_last]
    · simp
    · apply no_fsep
      rw [segmText_toks hn.1 hn.2, fields_join fun t ht => (alig_word p.1 p.2 t ht).1]
      exact fun hb => (alig_word p.1 p.2 _ hb).2 rfl
  unfold filterNbl
  rw [h1, srcSent_eq hs]
  simp only [List.tail_cons]
  rw [hts, has, v1]
  simp only
  rw [filtLoop_spec (fun x : NbEntry => entryLine x.entry) (fun x => decide (Honoured (md (joinWords src)) cov x)) xs vs
    (by rw [v2, List.length_zipWith, hl]; omega)]
  intro i x hxi
  obtain ⟨p, hpi⟩ := get_pair hl hxi
  have hp := hseg i x p hxi hpi
  have hz : (List.zipWith toCheck xs sc)[i]? = some (toCheck x p) := by
    rw [List.getElem?_zipWith, hxi, hpi]
  have hg : Meta.Good (md (joinWords src)) (toCheck x p) ↔ Honoured (md (joinWords src)) cov x := by
    rw [← good_iff (md (joinWords src)) (hx x (hmem hxi)).2 hp]
    unfold Meta.Good toCheck
    simp only [htok x (hmem hxi)]
  rcases v3 i _ hz with ⟨hv, hg'⟩ | ⟨hv, hg'⟩
  · rw [hv, if_pos (decide_eq_true (hg.1 hg'))]
  · rw [hv, if_neg (by rw [decide_eq_true_eq]; exact fun h => hg' (hg.2 h))]

/-! ### Counterexample and example -/

def fA0 : GArc := ⟨0, 1, ['5'], [['5']], []⟩
def fA1 : GArc := ⟨0, 2, ['4'], [['4']], [['c']]⟩
def fIdx : List (Nat × W) := [(0, ['7']), (1, ['7']), (2, ['7'])]
def fX0 : NbEntry := ⟨⟨['5'], [['5']], some [['0', '-', '>', '1']], []⟩, [fA0]⟩
def fX1 : NbEntry := ⟨⟨['4'], [['4']], some [['0', '-', '>', '2']], [['c']]⟩, [fA1]⟩

theorem fCov (n : Nat) (h : n ≠ 0) : exCov n = [false, true] := by unfold exCov; rw [if_neg h]
theorem f_cov (a : GArc) (h : a.o = 0) (hd : a.d ≠ 0) : Covers exCov a 1 := by
  unfold Covers; rw [h, fCov _ hd]; decide

theorem fTrans0 : transText fA0 = ['0', '-', '>', '1'] := by
  show showNat 0 ++ ['-', '>'] ++ showNat 1 = _
  rw [ex_show.1, ex_show.2.1]; rfl
theorem fTrans1 : transText fA1 = ['0', '-', '>', '2'] := by
  show showNat 0 ++ ['-', '>'] ++ showNat 2 = _
  rw [ex_show.1, ex_show.2.2]; rfl

theorem fwg_ok : ∀ a ∈ [fA0, fA1], a.Ok ∧ ∃ p, Covers exCov a p := by
  intro a ha
  simp only [List.mem_cons, List.not_mem_nil, or_false] at ha
  rcases ha with rfl | rfl
  · exact ⟨⟨noBars_dec (by decide), noBars_dec (by decide), noBars_dec (by decide)⟩, 1, f_cov _ rfl (by decide)⟩
  · exact ⟨⟨noBars_dec (by decide), noBars_dec (by decide), noBars_dec (by decide)⟩, 1, f_cov _ rfl (by decide)⟩

theorem fidx_ok : ∀ i ∈ fIdx, exCov i.1 ≠ [] := by intro i _; unfold exCov; split <;> decide

theorem fpar : ∀ a ∈ [fA0, fA1], ∀ b ∈ [fA0, fA1], a.o = b.o → a.d = b.d → a.words.length = b.words.length := by
  intro a ha b hb _ hd
  simp only [List.mem_cons, List.not_mem_nil, or_false] at ha hb
  rcases ha with rfl | rfl <;> rcases hb with rfl | rfl
  · rfl
  · exact absurd hd (by decide)
  · exact absurd hd (by decide)
  · rfl

theorem derives_one {x : NbEntry} {a : GArc} (ha : x.arcs = [a]) (hw : x.entry.trans = a.words) (ht : ∀ w ∈ x.entry.trans, '\t' ∉ w)
    (hs : x.entry.trans.length < 2^31) (hc : (exCov a.d).length < 2^31) : x.Derives exCov := by
  refine ⟨by rw [ha, hw]; simp, ht, ?_, hs, by intro b hb; rw [ha] at hb; rw [List.mem_singleton.1 hb]; exact hc⟩
  intro i j a b s t hi hj hij
  rw [ha] at hi hj
  match i, j, hij with
  | 0, 0, h => exact absurd rfl h
  | i + 1, _, _ => simp at hi
  | 0, j + 1, _ => simp at hj

theorem fX0_ok : fX0.Ok [fA0, fA1] fIdx ∧ fX0.Derives exCov := by
  refine ⟨⟨⟨sent_dec (by decide), sent_dec (by decide), ?_, sent_dec (by decide)⟩, ⟨noBars_dec (by decide), noBars_dec (by decide)⟩, ?_, by decide, ?_⟩,
    derives_one (a := fA0) rfl rfl (by decide) (by decide) (by rw [fCov _ (by decide)]; decide)⟩
  · intro s hs; cases hs; exact sent_dec (by decide)
  · show some [['0', '-', '>', '1']] = some [transText fA0]
    rw [fTrans0]
  · intro a ha
    rw [List.mem_singleton.1 ha]
    exact ⟨by simp, ⟨_, List.mem_cons_self, rfl⟩, ⟨_, List.mem_cons_of_mem _ List.mem_cons_self, rfl⟩⟩

theorem fX1_ok (wg : List GArc) (h : fA1 ∈ wg) : fX1.Ok wg fIdx ∧ fX1.Derives exCov := by
  refine ⟨⟨⟨sent_dec (by decide), sent_dec (by decide), ?_, sent_dec (by decide)⟩, ⟨noBars_dec (by decide), noBars_dec (by decide)⟩, ?_, by decide, ?_⟩,
    derives_one (a := fA1) rfl rfl (by decide) (by decide) (by rw [fCov _ (by decide)]; decide)⟩
  · intro s hs; cases hs; exact sent_dec (by decide)
  · show some [['0', '-', '>', '2']] = some [transText fA1]
    rw [fTrans1]
  · intro a ha
    rw [List.mem_singleton.1 ha]
    exact ⟨h, ⟨_, List.mem_cons_self, rfl⟩, ⟨_, List.mem_cons_of_mem _ (List.mem_cons_of_mem _ List.mem_cons_self), rfl⟩⟩

theorem fsrc : ∀ w ∈ ['#'] :: ['s'] :: ['t'] :: [['x']], Word w := by
  intro w hw
  have : ∀ w ∈ ['#'] :: ['s'] :: ['t'] :: [['x']], w ≠ [] ∧ ∀ c ∈ w, c ≠ ' ' ∧ c ≠ '\n' ∧ c ≠ '\x00' := by decide
  exact this w hw

/-- **C272 is false of the code**: after an entry without translation, no entry is printed. -/
theorem C272_counterexample : ¬ C272_full := by
  classical
  intro hf
  have hx : ∀ x ∈ [fX0, fX1], x.Ok [fA0, fA1] fIdx ∧ x.Derives exCov := by
    intro x hx
    simp only [List.mem_cons, List.not_mem_nil, or_false] at hx
    rcases hx with rfl | rfl
    · exact fX0_ok
    · exact fX1_ok _ (by simp)
  have h := hf (fun _ => ⟨[], []⟩) exCov [fA0, fA1] fIdx [fX0, fX1] [] [] [] ['#'] ['s'] ['t'] [] [['x']] fwg_ok fidx_ok hx fpar fsrc
  obtain ⟨out, h1, sc, hl, hseg, rfl⟩ := C268_segm_partial exCov [fA0, fA1] fIdx [fX0, fX1] [] [] []
    (joinWords (['#'] :: ['s'] :: ['t'] :: [['x']])) [] fwg_ok fidx_ok (fun x h => (hx x h).1) fpar
  have hall : ([fX0, fX1].filter fun x => decide (Honoured ⟨[], []⟩ exCov x)) = [fX0, fX1] := by
    rw [List.filter_eq_self]
    intro x _
    exact decide_eq_true (by intro c hc; cases hc)
  rw [hall] at h
  match sc, hl with
  | [p, q], _ =>
    unfold filterNbl at h
    rw [h1] at h
    simp only [List.tail_cons, List.map_cons, List.map_nil, List.zipWith_cons_cons, List.zipWith_nil_left] at h
    rw [(split_line fX0_ok.1.entry fX0_ok.1.states []).2] at h
    have hc : ∀ (d : Meta.MD) (ts as : List W) (a : W), Meta.checkLoop d ([] :: ts) (a :: as) = some ([.targetEmpty], true) := by
      intro d ts as a
      rw [Meta.checkLoop, if_pos]
      have := StrProc.C15_roundtrip [] (by simp)
      rw [show StrProc.stringVectorToString [] = [] from rfl] at this
      rw [this]; rfl
    have e : ([fX0.entry.score, joinWords fX0.entry.feats, joinWords (fX0.arcs.map transText), joinWords fX0.entry.trans] : List W).getD 3 [] = [] := rfl
    rw [e, hc] at h
    simp only [List.map_cons, List.map_nil] at h
    have e2 : filtLoop [entryLine fX0.entry, entryLine fX1.entry] [verdictLine .targetEmpty] = [entryLine fX0.entry] := by
      show (if verdictLine .targetEmpty = notSat then [] else [entryLine fX0.entry]) ++ [] = _
      rw [if_neg (by decide)]; rfl
    rw [e2] at h
    simp at h

/-- The hypotheses of the partial theorem are met; the entry does not honour the constraint that its word is translated by `d`. -/
example : filterNbl (fun _ => ⟨[['x']], [((1, 1), [['d']])]⟩) [[], entryLine fX1.entry] [[], [], arcLine fA1]
    (joinWords (['#'] :: ['s'] :: ['t'] :: [['x']]) :: [] :: fIdx.map (idxLine exCov)) = some [[]] := by
  classical
  have h := C272_filter_partial (fun _ => ⟨[['x']], [((1, 1), [['d']])]⟩) exCov [fA1] fIdx [fX1] [] [] [] ['#'] ['s'] ['t'] [] [['x']]
    (fun a ha => fwg_ok a (by rw [List.mem_singleton.1 ha]; simp)) fidx_ok
    (by intro x hx; rw [List.mem_singleton.1 hx]; exact fX1_ok _ (by simp))
    (fun a ha b hb => fpar a (by rw [List.mem_singleton.1 ha]; simp) b (by rw [List.mem_singleton.1 hb]; simp)) fsrc
    (by intro x hx; rw [List.mem_singleton.1 hx]; decide)
  have hn : ¬ Honoured ⟨[['x']], [((1, 1), [['d']])]⟩ exCov fX1 := by
    intro hh
    have hs : SegmOf exCov fA1 (1, 1) := by
      refine ⟨f_cov fA1 rfl (by decide), f_cov fA1 rfl (by decide), ?_⟩
      intro p hp
      have h1 : ([false, true] : List Bool)[p]? = some true := by rw [← fCov 2 (by decide)]; exact hp.1
      match p, h1 with
      | 1, _ => exact ⟨Nat.le_refl _, Nat.le_refl _⟩
    have := (hh _ List.mem_cons_self fA1 List.mem_cons_self (1, 1) hs (by decide) (by decide)).2
    exact absurd this (by decide)
  rw [List.filter_cons_of_neg (by rw [decide_eq_true_eq]; exact hn)] at h
  exact h

end Thot.NbTools
