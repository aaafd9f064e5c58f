import Verif.WordGraph.FileModel
import Verif.WordGraph.UsefulProps
import Verif.AligFile.MyFmt
/-! Lemmas on printing and loading word graphs. -/
namespace Thot.WordGraph
open Thot.Vocab (showNat atoi toWordIndex atoi_showNat showNat_digits digit_dig)
open Thot.SentHandler (Word Line cut_word fields_join line_join)
open Thot.AligFile (word_showNat line_sp wi_nat)

theorem join_eq (ws : List Str) : joinWords ws = SentHandler.joinWords ws := by
  induction ws with
  | nil => rfl
  | cons w ws ih => cases ws with
    | nil => rfl
    | cons v ws => rw [joinWords, SentHandler.joinWords, ih] <;> simp

theorem fields_app {ws : List Str} (h : ∀ w ∈ ws, Word w) (s : Str) :
    Awk.fields ' ' (ws.flatMap (· ++ [' ']) ++ s) = ws ++ Awk.fields ' ' s := by
  induction ws with
  | nil => rfl
  | cons w ws ih =>
    have hw := h w List.mem_cons_self
    have hne : (!w.isEmpty) = true := by cases w with | nil => exact absurd rfl hw.1 | cons => rfl
    have := ih (fun x hx => h x (List.mem_cons_of_mem _ hx))
    rw [List.flatMap_cons, List.append_assoc, List.append_assoc, List.singleton_append]
    unfold Awk.fields at *
    rw [cut_word (fun c hc => (hw.2 c hc).1), List.filter_cons_of_pos (by simpa using hne), this, List.cons_append]

/-- The fields of a line. -/
def fl (l : Str) : List Str := Awk.fields ' ' l

theorem lnf_eq (l : Str) : lnf l = (fl l).length := Awk.C41_NF ' ' l

theorem ld_eq (l : Str) (n : Nat) : ld l (n + 1) = (fl l)[n]?.getD [] := (Awk.C41_dollar ' ' l).2 n

theorem index_showNat (n : Nat) (h : n < 2 ^ 31) : index (showNat n) = some n := by
  unfold index
  rw [atoi_showNat n h, Option.map_some, wi_nat n h]

/-! ### Lines of arcs -/

def compToks (fmt : Score → Str) (c : List Score) : List Str := if c = [] then [] else bars :: (c.map fmt ++ [bars])

def headToks (fmt : Score → Str) (a : Arc) (c : List Score) : List Str :=
  showNat a.pred :: showNat a.succ :: fmt a.score :: compToks fmt c

theorem arcText_eq (fmt : Score → Str) (a : Arc) (c : List Score) :
    arcText fmt a c = (headToks fmt a c).flatMap (· ++ [' ']) ++ SentHandler.joinWords a.words := by
  have : printComps fmt c = (compToks fmt c).flatMap (· ++ [' ']) := by
    unfold printComps compToks
    split
    · rfl
    · simp [List.flatMap_cons, List.flatMap_append, List.flatMap_map]
  unfold arcText headToks
  rw [this, join_eq]
  simp [List.flatMap_cons]

theorem word_bars : Word bars := ⟨by decide, by decide⟩

theorem headToks_word {fmt : Score → Str} (hf : ∀ x, Word (fmt x)) (a : Arc) (c : List Score) :
    ∀ w ∈ headToks fmt a c, Word w := by
  intro w hw
  unfold headToks compToks at hw
  simp only [List.mem_cons] at hw
  rcases hw with rfl | rfl | rfl | hw
  · exact word_showNat _
  · exact word_showNat _
  · exact hf _
  · split at hw
    · cases hw
    · simp only [List.mem_cons, List.mem_append, List.mem_map, List.not_mem_nil, or_false] at hw
      rcases hw with rfl | ⟨x, _, rfl⟩ | rfl
      · exact word_bars
      · exact hf _
      · exact word_bars

theorem fl_arcText {fmt : Score → Str} (hf : ∀ x, Word (fmt x)) (a : Arc) (c : List Score) (h : ∀ w ∈ a.words, Word w) :
    fl (arcText fmt a c) = headToks fmt a c ++ a.words := by
  unfold fl
  rw [arcText_eq, fields_app (headToks_word hf a c), fields_join h]

theorem line_arcText {fmt : Score → Str} (hf : ∀ x, Word (fmt x)) (a : Arc) (c : List Score) (h : ∀ w ∈ a.words, Word w) :
    Line (arcText fmt a c) := by
  rw [arcText_eq]
  intro x hx
  rcases List.mem_append.1 hx with hx | hx
  · exact line_sp (headToks_word hf a c) x hx
  · exact line_join h x hx

theorem loadComps_eq (atof : Str → Score) (l : Str) : ∀ (xs : List Str) (pre post : List Str) (n : Nat),
    fl l = pre ++ (xs ++ bars :: post) → (∀ x ∈ xs, x ≠ bars) → xs.length ≤ n →
    loadComps atof l n (pre.length + 1) = (xs.map atof, pre.length + xs.length + 2) := by
  intro xs
  induction xs with
  | nil =>
    intro pre post n h _ _
    have h1 : ld l (pre.length + 1) = bars := by rw [ld_eq, h]; simp
    cases n with
    | zero => rfl
    | succ n => rw [loadComps, if_neg (by rw [h1]; simp)]; rfl
  | cons x xs ih =>
    intro pre post n h hx hn
    have h1 : ld l (pre.length + 1) = x := by rw [ld_eq, h]; simp
    have h2 : pre.length + 1 ≤ lnf l := by rw [lnf_eq, h]; simp
    cases n with
    | zero => simp at hn
    | succ n =>
      have := ih (pre ++ [x]) post n (by rw [h]; simp) (fun y hy => hx y (List.mem_cons_of_mem _ hy)) (by simpa using hn)
      rw [List.length_append, List.length_singleton] at this
      rw [loadComps, if_pos ⟨by rw [h1]; exact hx x List.mem_cons_self, h2⟩, this, h1]
      simp; omega

theorem lineWords_eq (l : Str) (pre ws : List Str) (h : fl l = pre ++ ws) : lineWords l (pre.length + 1) = ws := by
  unfold lineWords
  have hl : lnf l + 1 - (pre.length + 1) = ws.length := by rw [lnf_eq, h]; simp
  rw [hl]
  apply List.ext_getElem
  · simp
  · intro i h1 h2
    have : pre.length + 1 + 1 * i = (pre.length + i) + 1 := by omega
    simp only [List.getElem_map, List.getElem_range', this, ld_eq, h]
    rw [List.getElem?_append_right (by omega)]
    simp [List.getElem?_eq_getElem h2]

/-- What is read from the line of an arc. -/
theorem loadLine_arc {fmt : Score → Str} (atof : Str → Score) (hf : ∀ x, Word (fmt x) ∧ fmt x ≠ bars) (g : WG) (a : Arc) (c : List Score)
    (h : ∀ w ∈ a.words, Word w) (hp : a.pred < 2 ^ 31) (hs : a.succ < 2 ^ 31) (hb : c = [] → a.words.head? ≠ some bars) :
    loadLine atof g (arcText fmt a c) =
      addArcWithScrComps g a.pred a.succ a.words (atof (fmt a.score)) (c.map fun x => atof (fmt x)) := by
  have hfl := fl_arcText (fun x => (hf x).1) a c h
  have e1 : ld (arcText fmt a c) 1 = showNat a.pred := by rw [show (1 : Nat) = 0 + 1 from rfl, ld_eq, hfl]; rfl
  have e2 : ld (arcText fmt a c) 2 = showNat a.succ := by rw [show (2 : Nat) = 1 + 1 from rfl, ld_eq, hfl]; rfl
  have e3 : ld (arcText fmt a c) 3 = fmt a.score := by rw [show (3 : Nat) = 2 + 1 from rfl, ld_eq, hfl]; rfl
  have e4 : ld (arcText fmt a c) 4 = ((compToks fmt c ++ a.words)[0]?).getD [] := by
    rw [show (4 : Nat) = 3 + 1 from rfl, ld_eq, hfl]; rfl
  have e5 : lnf (arcText fmt a c) ≥ 3 := by rw [lnf_eq, hfl]; simp [headToks]
  have e6 : lineComps atof (arcText fmt a c) = (c.map fun x => atof (fmt x), (headToks fmt a c).length + 1) := by
    unfold lineComps
    by_cases hc : c = []
    · have : ld (arcText fmt a c) 4 ≠ bars := by
        rw [e4, hc]
        have := hb hc
        cases hw : a.words with
        | nil => simp [compToks, bars]
        | cons w ws => rw [hw] at this; simp [compToks]; simpa using this
      rw [if_neg this, hc]; rfl
    · have h4 : ld (arcText fmt a c) 4 = bars := by rw [e4]; simp [compToks, hc]
      rw [if_pos h4]
      have := loadComps_eq atof (arcText fmt a c) (c.map fmt) [showNat a.pred, showNat a.succ, fmt a.score, bars] a.words
        (lnf (arcText fmt a c)) (by rw [hfl]; simp [headToks, compToks, hc])
        (by intro x hx; obtain ⟨y, _, rfl⟩ := List.mem_map.1 hx; exact (hf y).2)
        (by rw [lnf_eq, hfl]; simp [headToks, compToks, hc]; omega)
      simp only [List.length_cons, List.length_nil] at this
      rw [this]
      simp [headToks, compToks, hc, Function.comp_def]
      omega
  unfold loadLine
  rw [if_pos e5, e1, e2, index_showNat _ hp, index_showNat _ hs, e3, e6]
  simp only
  rw [lineWords_eq _ _ _ hfl]

/-! ### The loop over the lines -/

/-- Adding a list of arcs. -/
def addAll : List (Arc × List Score) → WG → Option WG
  | [], g => some g
  | e :: es, g => match addArcWithScrComps g e.1.pred e.1.succ e.1.words e.1.score e.2 with
    | none => none
    | some g => addAll es g

def arcsText (fmt : Score → Str) (es : List (Arc × List Score)) : Str := es.flatMap fun e => arcText fmt e.1 e.2 ++ ['\n']

/-- An arc whose scores have been written and read. -/
def reread (rt : Score → Score) (e : Arc × List Score) : Arc × List Score := ({ e.1 with score := rt e.1.score }, e.2.map rt)

/-- The arc can be written. -/
def OkArc (e : Arc × List Score) : Prop :=
  (∀ w ∈ e.1.words, Word w) ∧ e.1.pred < 2 ^ 31 ∧ e.1.succ < 2 ^ 31 ∧ (e.2 = [] → e.1.words.head? ≠ some bars)

theorem loadLoop_eq {fmt : Score → Str} (atof : Str → Score) (hf : ∀ x, Word (fmt x) ∧ fmt x ≠ bars) :
    ∀ (es : List (Arc × List Score)) (g : WG) (n : Nat), (∀ e ∈ es, OkArc e) → (arcsText fmt es).length < n →
    loadLoop atof n (arcsText fmt es) g = addAll (es.map (reread fun x => atof (fmt x))) g := by
  intro es
  induction es with
  | nil =>
    intro g n _ hn
    cases n with
    | zero => simp at hn
    | succ n => rfl
  | cons e es ih =>
    intro g n h hn
    have he := h e List.mem_cons_self
    cases n with
    | zero => simp at hn
    | succ n =>
      have h1 : arcsText fmt (e :: es) = arcText fmt e.1 e.2 ++ '\n' :: arcsText fmt es := by
        simp [arcsText, List.flatMap_cons]
      rw [h1] at hn ⊢
      rw [loadLoop, Awk.getln_nl _ _ (line_arcText (fun x => (hf x).1) e.1 e.2 he.1)]
      simp only
      rw [loadLine_arc atof hf g e.1 e.2 he.1 he.2.1 he.2.2.1 he.2.2.2, List.map_cons, addAll]
      simp only [reread]
      cases addArcWithScrComps g e.1.pred e.1.succ e.1.words (atof (fmt e.1.score)) (e.2.map fun x => atof (fmt x)) with
      | none => rfl
      | some g1 =>
        simp only
        exact ih g1 n (fun x hx => h x (List.mem_cons_of_mem _ hx)) (by
          simp only [List.length_append, List.length_cons] at hn; omega)

/-! ### Adding the arcs -/

/-- Every arc leaves a state that exists when it is added: its number is at most the successor of the arc or of an earlier one. -/
def Addable (n : Nat) (as : List Arc) : Prop :=
  ∀ (k : Nat) (a : Arc), as[k]? = some a → a.pred < n ∨ a.pred ≤ a.succ ∨ ∃ (j : Nat) (b : Arc), j < k ∧ as[j]? = some b ∧ a.pred ≤ b.succ

theorem addable_cons (n : Nat) (a : Arc) (as : List Arc) :
    Addable n (a :: as) ↔ a.pred < Nat.max n (a.succ + 1) ∧ Addable (Nat.max n (a.succ + 1)) as := by
  have hm : ∀ x, x < Nat.max n (a.succ + 1) ↔ x < n ∨ x ≤ a.succ := by
    intro x; simp only [Nat.max_def]; split <;> omega
  constructor
  · intro h
    refine ⟨?_, ?_⟩
    · rw [hm]
      rcases h 0 a rfl with h | h | ⟨j, b, hj, _⟩
      · exact Or.inl h
      · exact Or.inr h
      · exact absurd hj (by omega)
    · intro k b hk
      rw [hm]
      rcases h (k + 1) b hk with h | h | ⟨j, c, hj, hc, hle⟩
      · exact Or.inl (Or.inl h)
      · exact Or.inr (Or.inl h)
      · cases j with
        | zero => cases hc; exact Or.inl (Or.inr hle)
        | succ j => exact Or.inr (Or.inr ⟨j, c, by omega, hc, hle⟩)
  · rintro ⟨h1, h2⟩ k b hk
    cases k with
    | zero =>
      cases hk
      rw [hm] at h1
      rcases h1 with h1 | h1
      · exact Or.inl h1
      · exact Or.inr (Or.inl h1)
    | succ k =>
      rcases h2 k b hk with h | h | ⟨j, c, hj, hc, hle⟩
      · rw [hm] at h
        rcases h with h | h
        · exact Or.inl h
        · exact Or.inr (Or.inr ⟨0, a, by omega, rfl, h⟩)
      · exact Or.inr (Or.inl h)
      · exact Or.inr (Or.inr ⟨j + 1, c, by omega, hc, hle⟩)

theorem addAll_ok : ∀ (es : List (Arc × List Score)) (g : WG), WF g → Addable g.states.length (es.map Prod.fst) →
    ∃ g', addAll es g = some g' ∧ WF g' ∧ g'.arcs = g.arcs ++ es.map Prod.fst ∧ g'.comps = g.comps ++ es.map Prod.snd ∧
      g'.pruned = g.pruned ++ List.replicate es.length false ∧ g'.final = g.final ∧ g'.init = g.init ∧ g'.weights = g.weights ∧
      ∀ n, g'.states.length ≤ n ↔ g.states.length ≤ n ∧ ∀ e ∈ es, e.1.succ < n := by
  intro es
  induction es with
  | nil => intro g hw _; exact ⟨g, rfl, hw, by simp, by simp, by simp, rfl, rfl, rfl, by simp⟩
  | cons e es ih =>
    intro g hw ha
    rw [List.map_cons, addable_cons] at ha
    obtain ⟨g1, h1, h2, h3, h4, h5, h6, h7, h8, h9⟩ := C61_addArcWithScrComps hw e.1.pred e.1.succ e.1.words e.1.score e.2 ha.1
    obtain ⟨g', k1, k2, k3, k4, k5, k6, k7, k8, k9⟩ := ih g1 h2 (by rw [h6]; exact ha.2)
    refine ⟨g', by rw [addAll, h1]; exact k1, k2, ?_, ?_, ?_, by rw [k6, h7], by rw [k7, h8], by rw [k8, h9], ?_⟩
    · rw [k3, h3]; simp
    · rw [k4, h5]; simp
    · rw [k5, h4, List.length_cons, List.replicate_succ]; simp
    · intro n
      rw [k9, h6]
      have : Nat.max g.states.length (e.1.succ + 1) ≤ n ↔ g.states.length ≤ n ∧ e.1.succ < n := by
        simp only [Nat.max_def]; split <;> omega
      rw [this]
      simp [and_assoc]

theorem addAll_none : ∀ (es : List (Arc × List Score)) (g : WG), WF g → ¬ Addable g.states.length (es.map Prod.fst) →
    addAll es g = none := by
  intro es
  induction es with
  | nil => intro g _ h; exact absurd (by intro k a hk; simp at hk) h
  | cons e es ih =>
    intro g hw ha
    rw [List.map_cons, addable_cons] at ha
    by_cases h0 : e.1.pred < Nat.max g.states.length (e.1.succ + 1)
    · obtain ⟨g1, h1, h2, h3, h4, h5, h6, h7, h8, h9⟩ := C61_addArcWithScrComps hw e.1.pred e.1.succ e.1.words e.1.score e.2 h0
      rw [addAll, h1]
      exact ih g1 h2 (by rw [h6]; exact fun h => ha ⟨h0, h⟩)
    · rw [addAll]
      unfold addArcWithScrComps
      rw [(C61_addArc hw e.1.pred e.1.succ e.1.words e.1.score).2 h0]

/-! ### Final states -/

theorem setInsert_last (x : Nat) (l : List Nat) (h : ∀ y ∈ l, y < x) : setInsert x l = l ++ [x] := by
  induction l with
  | nil => rfl
  | cons y l ih =>
    have := h y List.mem_cons_self
    rw [setInsert, if_neg (by omega), if_neg (by omega), ih fun z hz => h z (List.mem_cons_of_mem _ hz)]
    rfl

theorem loadFinals_eq (l : Str) : ∀ (fs pre : List Nat) (acc : List Nat), fl l = (pre ++ fs).map showNat →
    (∀ f ∈ fs, f < 2 ^ 31) → fs.Pairwise (· < ·) → (∀ y ∈ acc, ∀ f ∈ fs, y < f) →
    loadFinals l (List.range' (pre.length + 1) fs.length) acc = some (acc ++ fs) := by
  intro fs
  induction fs with
  | nil => intro pre acc _ _ _ _; simp [loadFinals]
  | cons f fs ih =>
    intro pre acc h h1 h2 h3
    have e1 : ld l (pre.length + 1) = showNat f := by rw [ld_eq, h]; simp
    rw [List.length_cons, List.range'_succ, loadFinals, e1, index_showNat f (h1 f List.mem_cons_self)]
    simp only
    rw [setInsert_last f acc (fun y hy => h3 y hy f List.mem_cons_self)]
    have := ih (pre ++ [f]) (acc ++ [f]) (by rw [h]; simp) (fun x hx => h1 x (List.mem_cons_of_mem _ hx)) (List.Pairwise.of_cons h2) (by
      intro y hy x hx
      rcases List.mem_append.1 hy with hy | hy
      · exact h3 y hy x (List.mem_cons_of_mem _ hx)
      · rw [List.mem_singleton] at hy; subst hy; exact List.rel_of_pairwise_cons h2 hx)
    rw [List.length_append, List.length_singleton] at this
    rw [this]; simp

/-- The state is the end of an arc that has not been pruned. -/
def entered (g : WG) (s : Nat) : Bool :=
  (List.range g.arcs.length).any fun i => (g.arcs[i]?.map Arc.succ) == some s && g.pruned[i]? == some false

theorem entered_iff (g : WG) (s : Nat) : entered g s = true ↔ ∃ i a, Live g i a ∧ a.succ = s := by
  unfold entered
  rw [List.any_eq_true]
  constructor
  · rintro ⟨i, hi, h⟩
    have hil := List.mem_range.1 hi
    rw [List.getElem?_eq_getElem hil] at h
    simp only [Option.map_some, Bool.and_eq_true, beq_iff_eq, Option.some.injEq] at h
    exact ⟨i, g.arcs[i], ⟨List.getElem?_eq_getElem hil, h.2⟩, h.1⟩
  · rintro ⟨i, a, ⟨h1, h2⟩, h3⟩
    refine ⟨i, List.mem_range.2 (List.getElem?_eq_some_iff.1 h1).1, ?_⟩
    rw [h1, h2, Option.map_some, h3]; simp

theorem finalPruned_eq {g : WG} (hw : WF g) (s : Nat) : finalStatePruned g s = some !entered g s := by
  unfold finalStatePruned
  rw [C61_arcIdsToPred hw s]
  simp only [entered, List.any_filter, Bool.and_assoc]
  congr 3
  funext i
  cases (g.pruned[i]? == some false) <;> simp

theorem printFinals_eq {g : WG} (hw : WF g) : ∀ l : List Nat,
    printFinals g l = some (((l.filter (entered g)).map showNat).flatMap (· ++ [' '])) := by
  intro l
  induction l with
  | nil => rfl
  | cons s l ih =>
    rw [printFinals, finalPruned_eq hw, ih]
    simp only
    by_cases h : entered g s = true
    · rw [List.filter_cons_of_pos h, h]; simp [List.flatMap_cons]
    · rw [List.filter_cons_of_neg h]
      simp only [Bool.not_eq_true] at h
      rw [h]; rfl

/-! ### Weights -/

def pairToks (fmtW : Score → Str) : List (Str × Score) → List Str
  | [] => []
  | [p] => [p.1, fmtW p.2]
  | p :: l => p.1 :: fmtW p.2 :: [','] :: pairToks fmtW l

theorem printPairs_eq (fmtW : Score → Str) : ∀ l : List (Str × Score), printPairs fmtW l = SentHandler.joinWords (pairToks fmtW l) := by
  intro l
  induction l with
  | nil => rfl
  | cons p l ih => cases l with
    | nil => rfl
    | cons q l =>
      have h0 : ∃ x y, pairToks fmtW (q :: l) = x :: y := by cases l <;> exact ⟨_, _, rfl⟩
      obtain ⟨x, y, h0⟩ := h0
      rw [printPairs, pairToks, ih, h0] <;> simp [SentHandler.joinWords]

theorem pairToks_word {fmtW : Score → Str} (hf : ∀ x, Word (fmtW x)) : ∀ l : List (Str × Score), (∀ p ∈ l, Word p.1) →
    ∀ w ∈ pairToks fmtW l, Word w := by
  intro l
  induction l with
  | nil => intro _ w hw; cases hw
  | cons p l ih =>
    intro h w hw
    have hp := h p List.mem_cons_self
    cases l with
    | nil =>
      simp only [pairToks, List.mem_cons, List.not_mem_nil, or_false] at hw
      rcases hw with rfl | rfl
      · exact hp
      · exact hf _
    | cons q l =>
      rw [pairToks, List.mem_cons, List.mem_cons, List.mem_cons] at hw
      · rcases hw with rfl | rfl | rfl | hw
        · exact hp
        · exact hf _
        · exact ⟨by decide, by decide⟩
        · exact ih (fun x hx => h x (List.mem_cons_of_mem _ hx)) w hw
      · simp

theorem loadWeights_eq (atof : Str → Score) (fmtW : Score → Str) (l : Str) : ∀ (ws : List (Str × Score)) (pre : List Str) (n : Nat),
    fl l = pre ++ pairToks fmtW ws → ws.length ≤ n →
    loadWeights atof l n (pre.length + 1) = ws.map fun p => (p.1, atof (fmtW p.2)) := by
  intro ws
  induction ws with
  | nil =>
    intro pre n h _
    cases n with
    | zero => rfl
    | succ n => rw [loadWeights, if_neg (by rw [lnf_eq, h]; simp [pairToks])]; rfl
  | cons p ws ih =>
    intro pre n h hn
    cases n with
    | zero => simp at hn
    | succ n =>
      obtain ⟨r, hr⟩ : ∃ r, pairToks fmtW (p :: ws) = p.1 :: fmtW p.2 :: r := by cases ws <;> exact ⟨_, rfl⟩
      have e0 : pre.length + 1 ≤ lnf l := by rw [lnf_eq, h, hr]; simp
      have e1 : ld l (pre.length + 1) = p.1 := by rw [ld_eq, h, hr]; simp
      have e2 : ld l (pre.length + 1 + 1) = fmtW p.2 := by rw [ld_eq, h, hr]; simp
      rw [loadWeights, if_pos e0, e1, e2, List.map_cons]
      congr 1
      cases ws with
      | nil =>
        have hl : lnf l = pre.length + 2 := by rw [lnf_eq, h]; simp [pairToks]
        cases n with
        | zero => rfl
        | succ n => rw [loadWeights, if_neg (by omega)]; rfl
      | cons q ws =>
        have := ih (pre ++ [p.1, fmtW p.2, [',']]) n (by rw [h, pairToks] <;> simp) (by simpa using hn)
        rw [List.length_append] at this
        exact this

end Thot.WordGraph
