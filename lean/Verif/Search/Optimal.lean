import Verif.Search.Decode

/-!
Property C86: the translation returned is the best one.
-/
set_option linter.unusedSectionVars false
namespace Thot.Search
open Thot.StrProc (Str)
open Thot.MultiStack (elems Core SortedOk Outcome push_spec pop_spec empty_iff)
open Thot.AMap (lk)

/-! ### Specification -/

/-- `c` is obtained from `h` by expansions. -/
inductive Ext (m : Mode) (M : Model) (I : Input) (h : Hyp) : Hyp → Prop where
  | refl : Ext m M I h h
  | step {h1 h2 : Hyp} {hs : List Hyp} : Ext m M I h h1 → expandMode m M I h1 = some hs → h2 ∈ hs → Ext m M I h h2

/-- `c` is the score of a complete translation. -/
def Complete (I : Input) (h : Hyp) : Prop := isComplete I.src.length h.data = true

variable {S : Type} [DecidableEq S]

/-- Contract of the recombination states: hypotheses with the same state have the same completions, with the same scores,
and the same heuristic. -/
structure StateContract (m : Mode) (D : Dec S) (M : Model) (I : Input) : Prop where
  complete : ∀ h g, Reach m M I h → Reach m M I g → D.st h.data = D.st g.data →
    isComplete I.src.length h.data = isComplete I.src.length g.data
  extra : ∀ h g, Reach m M I h → Reach m M I g → D.st h.data = D.st g.data →
    extra D M I.src.length h.data = extra D M I.src.length g.data
  step : ∀ h g hs h', Reach m M I h → Reach m M I g → D.st h.data = D.st g.data → expandMode m M I h = some hs → h' ∈ hs →
    ∃ gs g', expandMode m M I g = some gs ∧ g' ∈ gs ∧ D.st h'.data = D.st g'.data ∧
      h'.score - h.score = g'.score - g.score

/-- The heuristic never underestimates a completion and is 0 for complete hypotheses. -/
structure Admissible (m : Mode) (M : Model) (I : Input) : Prop where
  bound : ∀ h c, Reach m M I h → Ext m M I h c → Complete I c → c.score ≤ h.score + M.heur h.data
  zero : ∀ c, Reach m M I c → Complete I c → M.heur c.data = 0

/-- No score is as low as the one used to discard hypotheses. -/
structure InRange (m : Mode) (D : Dec S) (M : Model) (I : Input) : Prop where
  min : ∀ h, Reach m M I h → D.minScore ≤ h.score
  worst : D.pruning = true → ∀ h, Reach m M I h → D.worst ≤ (stored D M I.src.length h).score

/-- In breadth-first search `G_EPSILON` makes every incomplete hypothesis better than every complete one, and the heuristic
is 0 for complete hypotheses. -/
structure BreadthFirst (m : Mode) (D : Dec S) (M : Model) (I : Input) : Prop where
  on : D.breadthFirst = true
  dom : ∀ h c, Reach m M I h → Reach m M I c → ¬ Complete I h → Complete I c →
    (stored D M I.src.length c).score < (stored D M I.src.length h).score
  zero : ∀ c, Reach m M I c → Complete I c → M.heur c.data = 0

/-! ### Expansions -/

theorem Ext.head {m : Mode} {M : Model} {I : Input} {h c : Hyp} (hx : Ext m M I h c) :
    h = c ∨ ∃ hs h1, expandMode m M I h = some hs ∧ h1 ∈ hs ∧ Ext m M I h1 c := by
  induction hx with
  | refl => exact Or.inl rfl
  | @step a b hs _ he hm ih =>
    right
    rcases ih with rfl | ⟨hs', h1, e1, e2, e3⟩
    · exact ⟨hs, b, he, hm, .refl⟩
    · exact ⟨hs', h1, e1, e2, .step e3 he hm⟩

theorem Ext.reach {m : Mode} {M : Model} {I : Input} {h c : Hyp} (hx : Ext m M I h c) (hr : Reach m M I h) : Reach m M I c := by
  induction hx with
  | refl => exact hr
  | step _ he hm ih => exact .step ih he hm

theorem Reach.ext {m : Mode} {M : Model} {I : Input} {c : Hyp} (hr : Reach m M I c) : Ext m M I (nullHyp M) c := by
  induction hr with
  | null => exact .refl
  | step _ he hm ih => exact .step ih he hm

theorem Ext.of_complete {m : Mode} {M : Model} {I : Input} {h c : Hyp} (hr : Reach m M I h) (hx : Ext m M I h c)
    (hc : Complete I h) : h = c := by
  rcases hx.head with h1 | ⟨hs, h1, e1, e2, _⟩
  · exact h1
  · have := step_incomplete hr e1 e2
    rw [hc] at this; cases this

theorem StateContract.ext {m : Mode} {D : Dec S} {M : Model} {I : Input} (hc : StateContract m D M I) {h g c : Hyp}
    (hh : Reach m M I h) (hg : Reach m M I g) (hst : D.st h.data = D.st g.data) (hx : Ext m M I h c) :
    ∃ c', Ext m M I g c' ∧ D.st c.data = D.st c'.data ∧ c.score - h.score = c'.score - g.score := by
  induction hx with
  | refl => exact ⟨g, .refl, hst, by omega⟩
  | @step a b hs hx he hm ih =>
    obtain ⟨c', e1, e2, e3⟩ := ih
    obtain ⟨gs, g', f1, f2, f3, f4⟩ := hc.step a c' hs b (hx.reach hh) (e1.reach hg) e2 he hm
    exact ⟨g', .step e1 f1 f2, f3, by omega⟩

theorem list_bounded {α : Type} (p : α → Int → Prop) (hmono : ∀ a x y, p a x → x ≤ y → p a y) : ∀ (l : List α),
    (∀ a ∈ l, ∃ B, p a B) → ∃ B, ∀ a ∈ l, p a B
  | [], _ => ⟨0, by simp⟩
  | a :: l, h => by
    obtain ⟨B1, h1⟩ := h a (by simp)
    obtain ⟨B2, h2⟩ := list_bounded p hmono l fun b hb => h b (by simp [hb])
    refine ⟨max B1 B2, fun b hb => ?_⟩
    rcases List.mem_cons.1 hb with rfl | hb
    · exact hmono _ _ _ h1 (Int.le_max_left _ _)
    · exact hmono _ _ _ (h2 b hb) (Int.le_max_right _ _)

/-- The scores of the completions of a hypothesis are bounded. -/
theorem ext_bounded {m : Mode} {M : Model} {I : Input} {h : Hyp} (hr : Reach m M I h) :
    ∃ B : Int, ∀ c, Ext m M I h c → c.score ≤ B := by
  have key : ∀ (f : Nat) (h : Hyp), uncovered I.src.length h.data ≤ f → Reach m M I h →
      ∃ B : Int, ∀ c, Ext m M I h c → c.score ≤ B := by
    intro f
    induction f with
    | zero =>
      intro h hf hr
      refine ⟨h.score, fun c hx => ?_⟩
      rcases hx.head with rfl | ⟨hs, h1, e1, e2, _⟩
      · exact Int.le_refl _
      · have := uncovered_step hr e1 e2; omega
    | succ f ih =>
      intro h hf hr
      cases he : expandMode m M I h with
      | none =>
        refine ⟨h.score, fun c hx => ?_⟩
        rcases hx.head with rfl | ⟨hs, h1, e1, e2, _⟩
        · exact Int.le_refl _
        · rw [he] at e1; cases e1
      | some hs =>
        obtain ⟨B, hB⟩ := list_bounded (fun h1 B => ∀ c, Ext m M I h1 c → c.score ≤ B)
          (fun a x y h1 h2 c hc => Int.le_trans (h1 c hc) h2) hs (fun h1 hm => ih h1 (by
            have := uncovered_step hr he hm; omega) (.step hr he hm))
        refine ⟨max B h.score, fun c hx => ?_⟩
        rcases hx.head with rfl | ⟨hs', h1, e1, e2, e3⟩
        · exact Int.le_max_right _ _
        · rw [he] at e1; cases e1
          exact Int.le_trans (hB h1 e2 c e3) (Int.le_max_left _ _)
  exact key _ h (Nat.le_refl _) hr

/-- Number of hypotheses built by expanding `h` again and again, `f` times at most. -/
def treeSize (m : Mode) (M : Model) (I : Input) : Nat → Hyp → Nat
  | 0, _ => 1
  | f + 1, h => 1 + (((expandMode m M I h).getD []).map (treeSize m M I f)).sum

theorem treeSize_pos (m : Mode) (M : Model) (I : Input) (f : Nat) (h : Hyp) : 1 ≤ treeSize m M I f h := by
  cases f <;> simp [treeSize]

theorem sum_le_sum' {α : Type} (f g : α → Nat) : ∀ (l : List α), (∀ a ∈ l, f a ≤ g a) → (l.map f).sum ≤ (l.map g).sum
  | [], _ => Nat.le_refl _
  | a :: l, h => by
    have h1 := h a (by simp)
    have h2 := sum_le_sum' f g l fun b hb => h b (by simp [hb])
    simp only [List.map_cons, List.sum_cons]; omega

theorem treeSize_mono (m : Mode) (M : Model) (I : Input) : ∀ (f : Nat) (h : Hyp),
    treeSize m M I f h ≤ treeSize m M I (f + 1) h
  | 0, h => by simp [treeSize]
  | f + 1, h => by
    rw [treeSize, treeSize]
    have := sum_le_sum' (treeSize m M I f) (treeSize m M I (f + 1)) ((expandMode m M I h).getD [])
      fun a _ => treeSize_mono m M I f a
    omega

theorem treeSize_mono' (m : Mode) (M : Model) (I : Input) (h : Hyp) {f g : Nat} (hfg : f ≤ g) :
    treeSize m M I f h ≤ treeSize m M I g h := by
  induction hfg with
  | refl => exact Nat.le_refl _
  | step _ ih => exact Nat.le_trans ih (treeSize_mono m M I _ h)

/-- Number of hypotheses that can be built from `h`, counted once per derivation. -/
def weight (m : Mode) (M : Model) (I : Input) (h : Hyp) : Nat := treeSize m M I (uncovered I.src.length h.data) h

theorem weight_pos (m : Mode) (M : Model) (I : Input) (h : Hyp) : 1 ≤ weight m M I h := treeSize_pos ..

theorem weight_expand {m : Mode} {M : Model} {I : Input} {h : Hyp} {hs : List Hyp} (hr : Reach m M I h)
    (he : expandMode m M I h = some hs) : 1 + (hs.map (weight m M I)).sum ≤ weight m M I h := by
  cases hs with
  | nil => simpa using weight_pos m M I h
  | cons x xs =>
    have hpos := uncovered_step hr he (List.mem_cons_self (a := x) (l := xs))
    obtain ⟨f, hf⟩ : ∃ f, uncovered I.src.length h.data = f + 1 := ⟨uncovered I.src.length h.data - 1, by omega⟩
    unfold weight
    rw [hf, treeSize, he]
    have := sum_le_sum' (weight m M I) (treeSize m M I f) (x :: xs) fun y hy => by
      have := uncovered_step hr he hy
      exact treeSize_mono' m M I y (by omega)
    simp only [Option.getD_some]
    exact Nat.add_le_add_left this 1

/-! ### The sum of the weights of the hypotheses stored -/

def subTot (m : Mode) (D : Dec S) (M : Model) (I : Input) (ms : MultiStack.MS S HypData) (k : Nat) : Nat :=
  ((elems ms k).map fun e => weight m M I (back D M I.src.length e.2.2)).sum

def tot (m : Mode) (D : Dec S) (M : Model) (I : Input) (ms : MultiStack.MS S HypData) : Nat :=
  (ms.sorted.map (subTot m D M I ms)).sum

theorem sorted_ext : ∀ {l l' : List Nat}, l.Pairwise (· < ·) → l'.Pairwise (· < ·) → (∀ k, k ∈ l ↔ k ∈ l') → l = l'
  | [], [], _, _, _ => rfl
  | [], b :: l', _, _, h => absurd ((h b).2 (by simp)) (by simp)
  | a :: l, [], _, _, h => absurd ((h a).1 (by simp)) (by simp)
  | a :: l, b :: l', h1, h2, h => by
    obtain ⟨a1, a2⟩ := List.pairwise_cons.1 h1
    obtain ⟨b1, b2⟩ := List.pairwise_cons.1 h2
    have hab : a = b := by
      rcases List.mem_cons.1 ((h a).1 (by simp)) with h3 | h3
      · exact h3
      · rcases List.mem_cons.1 ((h b).2 (by simp)) with h4 | h4
        · exact h4.symm
        · have := a1 b h4; have := b1 a h3; omega
    subst hab
    rw [sorted_ext a2 b2 fun k => ?_]
    constructor
    · intro hk
      rcases List.mem_cons.1 ((h k).1 (by simp [hk])) with h3 | h3
      · have := a1 k hk; omega
      · exact h3
    · intro hk
      rcases List.mem_cons.1 ((h k).2 (by simp [hk])) with h3 | h3
      · have := b1 k hk; omega
      · exact h3

theorem sum_split (f : Nat → Nat) (c : Nat) : ∀ (l : List Nat), l.Pairwise (· < ·) →
    (l.map f).sum = (if c ∈ l then f c else 0) + ((l.filter (· != c)).map f).sum
  | [], _ => by simp
  | a :: l, h => by
    obtain ⟨a1, a2⟩ := List.pairwise_cons.1 h
    have ih := sum_split f c l a2
    by_cases hac : a = c
    · subst hac
      have hn : a ∉ l := fun hh => absurd (a1 a hh) (by omega)
      rw [if_neg hn] at ih
      simp [ih]
    · have : (c ∈ a :: l) ↔ c ∈ l := by simp [Ne.symm hac]
      simp only [List.map_cons, List.sum_cons, ih, this]
      rw [List.filter_cons_of_pos (by simpa using hac)]
      simp only [List.map_cons, List.sum_cons]
      omega

theorem tot_split (m : Mode) (D : Dec S) (M : Model) (I : Input) {ms : MultiStack.MS S HypData} (hso : SortedOk ms) (c : Nat) :
    tot m D M I ms = subTot m D M I ms c + ((ms.sorted.filter (· != c)).map (subTot m D M I ms)).sum := by
  unfold tot
  rw [sum_split _ c _ hso.srt]
  by_cases hc : c ∈ ms.sorted
  · rw [if_pos hc]
  · rw [if_neg hc]
    have : elems ms c = [] := Classical.byContradiction fun h => hc ((hso.mem c).2 h)
    simp [subTot, this]

theorem tot_change (m : Mode) (D : Dec S) (M : Model) (I : Input) {ms ms' : MultiStack.MS S HypData} (hso : SortedOk ms)
    (hso' : SortedOk ms') {c : Nat} (h : ∀ k, k ≠ c → elems ms' k = elems ms k) :
    tot m D M I ms' + subTot m D M I ms c = tot m D M I ms + subTot m D M I ms' c := by
  rw [tot_split m D M I hso c, tot_split m D M I hso' c]
  have hl : ms'.sorted.filter (· != c) = ms.sorted.filter (· != c) := by
    apply sorted_ext (hso'.srt.sublist List.filter_sublist) (hso.srt.sublist List.filter_sublist)
    intro k
    simp only [List.mem_filter, bne_iff_ne, ne_eq]
    constructor
    · rintro ⟨h1, h2⟩; exact ⟨(hso.mem k).2 (by rw [← h k h2]; exact (hso'.mem k).1 h1), h2⟩
    · rintro ⟨h1, h2⟩; exact ⟨(hso'.mem k).2 (by rw [h k h2]; exact (hso.mem k).1 h1), h2⟩
  have hm : (ms.sorted.filter (· != c)).map (subTot m D M I ms') = (ms.sorted.filter (· != c)).map (subTot m D M I ms) := by
    apply List.map_congr_left
    intro k hk
    simp only [List.mem_filter, bne_iff_ne, ne_eq] at hk
    simp [subTot, h k hk.2]
  rw [hl, hm]
  omega

theorem length_le_sum {α : Type} (f : α → Nat) (h : ∀ a, 1 ≤ f a) : ∀ (l : List α), l.length ≤ (l.map f).sum
  | [] => Nat.le_refl _
  | a :: l => by
    have := h a; have := length_le_sum f h l
    simp only [List.length_cons, List.map_cons, List.sum_cons]; omega

theorem length_le_tot (m : Mode) (D : Dec S) (M : Model) (I : Input) {ms : MultiStack.MS S HypData} (hso : SortedOk ms)
    (c : Nat) : (elems ms c).length ≤ tot m D M I ms := by
  rw [tot_split m D M I hso c]
  have := length_le_sum (fun e : MultiStack.Elem S HypData => weight m M I (back D M I.src.length e.2.2))
    (fun _ => weight_pos ..) (elems ms c)
  unfold subTot
  omega

theorem subTot_sublist (m : Mode) (M : Model) (I : Input) (D : Dec S) {l l' : List (MultiStack.Elem S HypData)}
    (h : l.Sublist l') : (l.map fun e => weight m M I (back D M I.src.length e.2.2)).sum ≤
      (l'.map fun e => weight m M I (back D M I.src.length e.2.2)).sum := by
  induction h with
  | slnil => exact Nat.le_refl _
  | cons _ _ ih => simp only [List.map_cons, List.sum_cons]; omega
  | cons_cons _ _ ih => simp only [List.map_cons, List.sum_cons]; omega

theorem sum_ins (f : MultiStack.Elem S HypData → Nat) (sc : Int) (v : Nat × MultiStack.Hyp S HypData)
    (l : List (MultiStack.Elem S HypData)) : ((MMap.ins sc v l).map f).sum = f (sc, v) + (l.map f).sum := by
  have := ((MMap.perm_ins sc v l).map f).sum_nat
  simpa using this

/-! ### The invariant -/

/-- Every complete translation below `h` is matched by one below a hypothesis stored or about to be pushed. -/
def Cov (m : Mode) (D : Dec S) (M : Model) (I : Input) (pend : List Hyp) (s : DState S) (h : Hyp) : Prop :=
  ∀ c, Ext m M I h c → Complete I c → ∃ w, (w ∈ pend ∨ ∃ k e, e ∈ elems s.ms k ∧ w = back D M I.src.length e.2.2) ∧
    ∃ c', Ext m M I w c' ∧ Complete I c' ∧ c.score ≤ c'.score

structure OInv (m : Mode) (D : Dec S) (M : Model) (I : Input) (P : List (MultiStack.Hyp S HypData)) (pend : List Hyp)
    (s : DState S) : Prop where
  sinv : SInv m D M I s
  best : MultiStack.Best P s.ms
  inP : ∀ k, ∀ e ∈ elems s.ms k, e.2.2 ∈ P
  pR : ∀ p ∈ P, ∃ h, Reach m M I h ∧ p = stored D M I.src.length h
  cov : ∀ p ∈ P, Cov m D M I pend s (back D M I.src.length p)
  bs : s.best = D.worst ∨ ∃ k e, e ∈ elems s.ms k ∧ isComplete I.src.length e.2.2.data = true ∧ s.best ≤ e.1
  pendR : ∀ h ∈ pend, Reach m M I h

/-- Order of the stored scores and of the translations. -/
def Ranks (m : Mode) (D : Dec S) (M : Model) (I : Input) : Prop := ∀ h e c, Reach m M I h → Reach m M I e → Complete I e →
  Ext m M I h c → Complete I c → (stored D M I.src.length h).score ≤ (stored D M I.src.length e).score → c.score ≤ e.score

theorem stored_data (D : Dec S) (M : Model) (n : Nat) (h : Hyp) : (stored D M n h).data = h.data := rfl

/-- What a push in a container with room does to the hypotheses stored. -/
theorem push_room {P : List (MultiStack.Hyp S HypData)} {ms ms' : MultiStack.MS S HypData} {x : MultiStack.Hyp S HypData}
    {ok : Bool} (hc : Core ms) (hb : MultiStack.Best P ms) (hin : ∀ k, ∀ e ∈ elems ms k, e.2.2 ∈ P)
    (hroom : (elems ms x.cls).length < ms.max) (ho : Outcome ms ms' x ok) :
    (ok = false → (∃ g ∈ P, g.state = x.state ∧ x.score < g.score) ∧ ∀ k, elems ms' k = elems ms k) ∧
    (ok = true → (x.score, (ms.next, x)) ∈ elems ms' x.cls ∧ (∀ k, k ≠ x.cls → elems ms' k = elems ms k) ∧
      (∃ base, base.Sublist (elems ms x.cls) ∧ elems ms' x.cls = MMap.ins x.score (ms.next, x) base) ∧
      ∀ k, ∀ e ∈ elems ms k, e ∈ elems ms' k ∨ (e.2.2.state = x.state ∧ e.1 ≤ x.score)) := by
  cases ho with
  | worse i sc h1 h2 h3 _ _ =>
    refine ⟨fun _ => ⟨?_, h3⟩, fun h => by cases h⟩
    obtain ⟨⟨g, g1, g2, g3⟩, _⟩ := hb.some _ _ _ h1
    exact ⟨g, g1, g2, by omega⟩
  | full _ _ _ _ _ h1 => omega
  | prune t l il sl _ _ _ _ h1 _ _ _ _ _ => omega
  | room h1 h2 h3 h4 h5 h6 =>
    refine ⟨fun h => (by cases h), fun _ => ⟨?_, h2, ⟨_, MultiStack.afterRec_sub ms x.cls _, h4⟩, ?_⟩⟩
    · rw [h4, MMap.mem_ins]; exact Or.inl rfl
    · intro k e he
      by_cases hk : k = x.cls
      · subst hk
        rw [h4, MMap.mem_ins]
        by_cases hmem : e ∈ MultiStack.afterRec ms x.cls (MultiStack.idxOf ms x.state)
        · exact Or.inl (Or.inr hmem)
        · right
          unfold MultiStack.afterRec at hmem
          split at hmem
          · rename_i k' hd hrec
            split at hmem
            · rename_i hk'
              subst hk'
              have hhd : e.2.1 = hd := by
                refine Classical.byContradiction fun hne => hmem (List.mem_filter.2 ⟨he, by simpa using hne⟩)
              obtain ⟨e1, he1, hh1, sc, hdict⟩ := hc.rc _ _ _ hrec
              have hee := MultiStack.pairwise_unique (hc.hnd x.cls) he he1 (by rw [hhd, hh1])
              subst hee
              cases hx : lk ms.dict x.state with
              | none =>
                have := hc.didx _ _ hdict
                simp [MultiStack.idxOf, hx] at this
              | some p =>
                have hidx : MultiStack.idxOf ms x.state = p.1 := by simp [MultiStack.idxOf, hx]
                have hst := hc.dinj _ _ _ _ hdict hx hidx
                refine ⟨hst, ?_⟩
                have hs1 := (hc.el _ e he).1
                have hs2 := (hb.some _ _ _ hx).2 e.2.2 (hin _ e he) hst
                have hs3 := h1 p.1 p.2 (by rw [hx])
                omega
            · exact absurd he hmem
          · exact absurd he hmem
      · rw [h2 k hk]; exact Or.inl he

theorem transfer {m : Mode} {D : Dec S} {M : Model} {I : Input} (hct : StateContract m D M I) {h g : Hyp}
    (hh : Reach m M I h) (hg : Reach m M I g) (hst : D.st h.data = D.st g.data)
    {c : Hyp} (hx : Ext m M I h c)
    (hcc : Complete I c) : ∃ c', Ext m M I g c' ∧ Complete I c' ∧
      c'.score - c.score = (stored D M I.src.length g).score - (stored D M I.src.length h).score := by
  obtain ⟨c', e1, e2, e3⟩ := hct.ext hh hg hst hx
  have he := hct.extra h g hh hg hst
  refine ⟨c', e1, ?_, by simp only [stored, he]; omega⟩
  unfold Complete
  rw [← hct.complete c c' (hx.reach hh) (e1.reach hg) e2]
  exact hcc

theorem opush {m : Mode} {D : Dec S} {M : Model} {I : Input} (hct : StateContract m D M I) (hir : InRange m D M I)
    (hrk : Ranks m D M I) {P : List (MultiStack.Hyp S HypData)} {h : Hyp} {pend : List Hyp} {s : DState S}
    (hi : OInv m D M I P (h :: pend) s) (hroom : tot m D M I s.ms < s.ms.max) :
    ∃ ok s' P', decPush D M I.src.length s h = some (ok, s') ∧ OInv m D M I P' pend s' ∧ (∀ p ∈ P, p ∈ P') ∧
      Cov m D M I pend s' h ∧ s'.ms.max = s.ms.max ∧ s'.ms.bf = s.ms.bf ∧
      tot m D M I s'.ms ≤ tot m D M I s.ms + weight m M I h ∧
      ((D.pruning = true → s.best ≤ (stored D M I.src.length h).score) → stored D M I.src.length h ∈ P') := by
  have hr := hi.pendR h (by simp)
  unfold decPush
  rw [if_pos (hir.min h hr)]
  dsimp only
  have hpend : ∀ g ∈ pend, Reach m M I g := fun g hg => hi.pendR g (by simp [hg])
  -- replacing `h` by the hypotheses that match it
  have hreplace : ∀ s', (Cov m D M I pend s' h) → (∀ k e, e ∈ elems s.ms k →
      ∀ c, Ext m M I (back D M I.src.length e.2.2) c → Complete I c →
      ∃ w, (w ∈ pend ∨ ∃ k e, e ∈ elems s'.ms k ∧ w = back D M I.src.length e.2.2) ∧
        ∃ c', Ext m M I w c' ∧ Complete I c' ∧ c.score ≤ c'.score) →
      ∀ p ∈ P, Cov m D M I pend s' (back D M I.src.length p) := by
    intro s' h1 h2 p hp c hx hc
    obtain ⟨w, hw, c', e1, e2, e3⟩ := hi.cov p hp c hx hc
    rcases hw with hw | ⟨k, e, he, rfl⟩
    · rcases List.mem_cons.1 hw with rfl | hw
      · obtain ⟨w', hw', c'', f1, f2, f3⟩ := h1 c' e1 e2
        exact ⟨w', hw', c'', f1, f2, by omega⟩
      · exact ⟨w, Or.inl hw, c', e1, e2, e3⟩
    · obtain ⟨w', hw', c'', f1, f2, f3⟩ := h2 k e he c' e1 e2
      exact ⟨w', hw', c'', f1, f2, by omega⟩
  have hkeep : ∀ k e, e ∈ elems s.ms k → ∀ c, Ext m M I (back D M I.src.length e.2.2) c → Complete I c →
      ∃ w, (w ∈ pend ∨ ∃ k e, e ∈ elems s.ms k ∧ w = back D M I.src.length e.2.2) ∧
        ∃ c', Ext m M I w c' ∧ Complete I c' ∧ c.score ≤ c'.score :=
    fun k e he c hx hc => ⟨_, Or.inr ⟨k, e, he, rfl⟩, c, hx, hc, Int.le_refl _⟩
  split
  · -- discarded because of the best complete hypothesis
    rename_i hp
    obtain ⟨hp1, hp2⟩ := hp
    have hcov : Cov m D M I pend s h := by
      intro c hx hc
      rcases hi.bs with hb | ⟨k, e, he, hec, heb⟩
      · have := hir.worst hp1 h hr
        omega
      · obtain ⟨g, hg, hge⟩ := hi.sinv.el k e he
        have hsc := (hi.sinv.core.el k e he).1
        have hgc : Complete I g := by
          unfold Complete; rw [hge] at hec; exact hec
        refine ⟨g, Or.inr ⟨k, e, he, by rw [hge, back_stored]⟩, g, .refl, hgc, ?_⟩
        exact hrk h g c hr hg hgc hx hc (by rw [← hge]; omega)
    exact ⟨false, s, P, rfl, ⟨hi.sinv, hi.best, hi.inP, hi.pR, hreplace s hcov hkeep, hi.bs, hpend⟩, fun _ h => h, hcov, rfl, rfl,
      by omega, fun hh => by have := hh hp1; omega⟩
  · obtain ⟨x, hx⟩ : ∃ x, x = stored D M I.src.length h := ⟨_, rfl⟩
    rw [← hx]
    obtain ⟨ok, ms', e1, e2, e3, e4, e5, ho⟩ := push_spec hi.sinv.core hi.sinv.sorted x
    rw [e1]
    have hlen := length_le_tot m D M I hi.sinv.sorted x.cls
    obtain ⟨o1, o2⟩ := push_room hi.sinv.core hi.best hi.inP (by omega) ho
    have hbest := MultiStack.best_push hi.best x ho
    have hsinv : SInv m D M I ⟨ms', if ok = true ∧ isComplete I.src.length h.data = true then x.score else s.best⟩ := by
      refine ⟨e2, e3, fun k e he => ?_⟩
      rcases outcome_mem ho he with he | ⟨he, _⟩
      · exact hi.sinv.el k e he
      · exact ⟨h, hr, by rw [he, ← hx]⟩
    have hpR : ∀ p ∈ P ++ [x], ∃ h, Reach m M I h ∧ p = stored D M I.src.length h := by
      intro p hp
      rcases List.mem_append.1 hp with hp | hp
      · exact hi.pR p hp
      · exact ⟨h, hr, by rw [List.mem_singleton.1 hp, hx]⟩
    have hin : ∀ k, ∀ e ∈ elems ms' k, e.2.2 ∈ P ++ [x] := by
      intro k e he
      rcases outcome_mem ho he with he | ⟨he, _⟩
      · exact List.mem_append_left _ (hi.inP k e he)
      · rw [he]; simp
    have hbx : back D M I.src.length x = h := by rw [hx, back_stored]
    cases ok with
    | false =>
      obtain ⟨⟨g, g1, g2, g3⟩, hel⟩ := o1 rfl
      obtain ⟨s', hs'⟩ : ∃ s' : DState S, s' = ⟨ms', if (false : Bool) = true ∧ isComplete I.src.length h.data = true
        then x.score else s.best⟩ := ⟨_, rfl⟩
      have hsb : s'.best = s.best := by rw [hs']; simp
      have hsm : s'.ms = ms' := by rw [hs']
      obtain ⟨gh, hg1, hg2⟩ := hi.pR g g1
      obtain ⟨B, hB⟩ := ext_bounded hr
      have hcov : Cov m D M I pend s' h := by
        have key : ∀ (j : Nat) c, (B - c.score).toNat ≤ j → Ext m M I h c → Complete I c →
            ∃ w, (w ∈ pend ∨ ∃ k e, e ∈ elems s'.ms k ∧ w = back D M I.src.length e.2.2) ∧
              ∃ c', Ext m M I w c' ∧ Complete I c' ∧ c.score ≤ c'.score := by
          intro j
          induction j with
          | zero =>
            intro c hj hxc hc
            obtain ⟨c', f1, f2, f3⟩ := transfer hct hr hg1 (by rw [hx, hg2] at g2; exact g2.symm) hxc hc
            rw [← hg2, ← hx] at f3
            obtain ⟨w, hw, c'', j1, j2, j3⟩ := hi.cov g g1 c' (by rw [hg2, back_stored]; exact f1) f2
            rcases hw with hw | ⟨k, e, he, rfl⟩
            · rcases List.mem_cons.1 hw with rfl | hw
              · have := hB c'' j1; omega
              · exact ⟨w, Or.inl hw, c'', j1, j2, by omega⟩
            · exact ⟨_, Or.inr ⟨k, e, by rw [hsm, hel]; exact he, rfl⟩, c'', j1, j2, by omega⟩
          | succ j ih =>
            intro c hj hxc hc
            obtain ⟨c', f1, f2, f3⟩ := transfer hct hr hg1 (by rw [hx, hg2] at g2; exact g2.symm) hxc hc
            rw [← hg2, ← hx] at f3
            obtain ⟨w, hw, c'', j1, j2, j3⟩ := hi.cov g g1 c' (by rw [hg2, back_stored]; exact f1) f2
            rcases hw with hw | ⟨k, e, he, rfl⟩
            · rcases List.mem_cons.1 hw with rfl | hw
              · obtain ⟨w', hw', c3, k1, k2, k3⟩ := ih c'' (by omega) j1 j2
                exact ⟨w', hw', c3, k1, k2, by omega⟩
              · exact ⟨w, Or.inl hw, c'', j1, j2, by omega⟩
            · exact ⟨_, Or.inr ⟨k, e, by rw [hsm, hel]; exact he, rfl⟩, c'', j1, j2, by omega⟩
        exact fun c => key _ c (Nat.le_refl _)
      refine ⟨false, s', P ++ [x], by rw [hs'], ⟨by rw [hs']; exact hsinv, by rw [hsm]; exact hbest,
        by rw [hsm]; exact hin, hpR, ?_, ?_, hpend⟩, fun p hp => List.mem_append_left _ hp, hcov, by rw [hsm, e4],
        by rw [hsm, e5], ?_, fun _ => by simp⟩
      · intro p hp
        rcases List.mem_append.1 hp with hp | hp
        · exact hreplace s' hcov (fun k e he c hxc hc =>
            ⟨_, Or.inr ⟨k, e, by rw [hsm, hel]; exact he, rfl⟩, c, hxc, hc, Int.le_refl _⟩) p hp
        · rw [List.mem_singleton.1 hp, hbx]; exact hcov
      · rw [hsb, hsm]
        rcases hi.bs with hb | ⟨k, e, he, hec, heb⟩
        · exact Or.inl hb
        · exact Or.inr ⟨k, e, by rw [hel]; exact he, hec, heb⟩
      · rw [hsm]
        have := tot_change m D M I hi.sinv.sorted e3 (c := x.cls) fun k _ => hel k
        have h2 : subTot m D M I ms' x.cls = subTot m D M I s.ms x.cls := by simp [subTot, hel]
        omega
    | true =>
      obtain ⟨q1, q2, ⟨base, q3, q3'⟩, q4⟩ := o2 rfl
      obtain ⟨s', hs'⟩ : ∃ s' : DState S, s' = ⟨ms', if (true : Bool) = true ∧ isComplete I.src.length h.data = true
        then x.score else s.best⟩ := ⟨_, rfl⟩
      have hsb : s'.best = if isComplete I.src.length h.data = true then x.score else s.best := by rw [hs']; simp
      have hsm : s'.ms = ms' := by rw [hs']
      have hcov : Cov m D M I pend s' h := fun c hxc hc =>
        ⟨h, Or.inr ⟨x.cls, _, by rw [hsm]; exact q1, hbx.symm⟩, c, hxc, hc, Int.le_refl _⟩
      refine ⟨true, s', P ++ [x], by rw [hs'], ⟨by rw [hs']; exact hsinv, by rw [hsm]; exact hbest,
        by rw [hsm]; exact hin, hpR, ?_, ?_, hpend⟩, fun p hp => List.mem_append_left _ hp, hcov, by rw [hsm, e4],
        by rw [hsm, e5], ?_, fun _ => by simp⟩
      · intro p hp
        rcases List.mem_append.1 hp with hp | hp
        · refine hreplace s' hcov (fun k e he c hxc hc => ?_) p hp
          rcases q4 k e he with hk | ⟨hst, hsc⟩
          · exact ⟨_, Or.inr ⟨k, e, by rw [hsm]; exact hk, rfl⟩, c, hxc, hc, Int.le_refl _⟩
          · obtain ⟨g, hg, hge⟩ := hi.sinv.el k e he
            rw [hge, back_stored] at hxc
            obtain ⟨c', f1, f2, f3⟩ := transfer hct hg hr (by rw [hge, hx] at hst; exact hst) hxc hc
            have hs1 := (hi.sinv.core.el k e he).1
            rw [← hge, ← hx] at f3
            exact ⟨h, Or.inr ⟨x.cls, _, by rw [hsm]; exact q1, hbx.symm⟩, c', f1, f2, by omega⟩
        · rw [List.mem_singleton.1 hp, hbx]; exact hcov
      · rw [hsb, hsm]
        by_cases hcomp : isComplete I.src.length h.data = true
        · rw [if_pos hcomp]
          exact Or.inr ⟨x.cls, _, q1, by rw [hx]; exact hcomp, Int.le_refl _⟩
        · rw [if_neg hcomp]
          rcases hi.bs with hb | ⟨k, e, he, hec, heb⟩
          · exact Or.inl hb
          · refine Or.inr ⟨k, e, ?_, hec, heb⟩
            rcases q4 k e he with hk | ⟨hst, hsc⟩
            · exact hk
            · obtain ⟨g, hg, hge⟩ := hi.sinv.el k e he
              have := hct.complete g h hg hr (by rw [hge, hx] at hst; exact hst)
              rw [hge, stored_data, this] at hec
              exact absurd hec hcomp
      · rw [hsm]
        have := tot_change m D M I hi.sinv.sorted e3 (c := x.cls) q2
        have h2 : subTot m D M I ms' x.cls ≤ weight m M I h + subTot m D M I s.ms x.cls := by
          unfold subTot
          rw [q3', sum_ins]
          have := subTot_sublist m M I D q3
          simp only [hbx]
          omega
        omega

theorem opushAll {m : Mode} {D : Dec S} {M : Model} {I : Input} (hct : StateContract m D M I) (hir : InRange m D M I)
    (hrk : Ranks m D M I) : ∀ (pend : List Hyp) {P : List (MultiStack.Hyp S HypData)} {s : DState S},
    OInv m D M I P pend s → tot m D M I s.ms + (pend.map (weight m M I)).sum ≤ s.ms.max →
    ∃ s' P', pushAll D M I.src.length pend s = some s' ∧ OInv m D M I P' [] s' ∧ (∀ p ∈ P, p ∈ P') ∧
      s'.ms.max = s.ms.max ∧ s'.ms.bf = s.ms.bf ∧ tot m D M I s'.ms ≤ tot m D M I s.ms + (pend.map (weight m M I)).sum
  | [], P, s, hi, _ => ⟨s, P, rfl, hi, fun _ h => h, rfl, rfl, Nat.le_add_right _ _⟩
  | h :: pend, P, s, hi, hroom => by
    simp only [List.map_cons, List.sum_cons] at hroom ⊢
    have hw := weight_pos m M I h
    obtain ⟨ok, s1, P1, e1, e2, e3, _, e4, e5, e6, _⟩ := opush hct hir hrk hi (by omega)
    obtain ⟨s2, P2, f1, f2, f3, f4, f5, f6⟩ := opushAll hct hir hrk pend e2 (by omega)
    refine ⟨s2, P2, by rw [pushAll, e1]; exact f1, f2, fun p hp => f3 p (e3 p hp), by omega, by rw [f5, e5], by omega⟩

/-- The hypothesis popped. -/
theorem opop {m : Mode} {D : Dec S} {M : Model} {I : Input} (hsafe : Safe m M I) (hrk : Ranks m D M I)
    {P : List (MultiStack.Hyp S HypData)} {s : DState S} (hi : OInv m D M I P [] s)
    (hnull : stored D M I.src.length (nullHyp M) ∈ P) (hne : MultiStack.empty s.ms = false)
    (hbf : D.breadthFirst = false → s.ms.bf = false) :
    ∃ h s', decPop D M I.src.length s = some (h, s') ∧ Reach m M I h ∧ s'.ms.max = s.ms.max ∧
      (D.breadthFirst = false → s'.ms.bf = false) ∧ tot m D M I s'.ms + weight m M I h = tot m D M I s.ms ∧
      (Complete I h → ∀ c, Reach m M I c → Complete I c → c.score ≤ h.score) ∧
      (¬ Complete I h → ∃ hs, expandMode m M I h = some hs ∧ OInv m D M I P hs.reverse s') := by
  obtain ⟨e, ms', k, _, r, e1, e2, e3, e4, e5, e6, _, e7, e8, e9, e10⟩ :=
    popStored_spec hi.sinv.core hi.sinv.sorted D I.src.length hne
  have hek : e ∈ elems s.ms k := by rw [e6]; simp
  obtain ⟨h, h1, h2⟩ := hi.sinv.el k e hek
  have hb : back D M I.src.length e.2.2 = h := by rw [h2, back_stored]
  have hse := (hi.sinv.core.el k e hek).1
  have hmem : ∀ j, ∀ y ∈ elems s.ms j, y = e ∨ y ∈ elems ms' j := by
    intro j y hy
    rw [e7]
    by_cases hj : j = k
    · subst hj
      rw [if_pos rfl]
      rw [e6] at hy
      exact List.mem_cons.1 hy
    · rw [if_neg hj]; exact Or.inr hy
  have hmem' : ∀ j, ∀ y ∈ elems ms' j, y ∈ elems s.ms j := by
    intro j y hy
    rw [e7] at hy
    by_cases hj : j = k
    · rw [if_pos hj] at hy; rw [hj, e6]; simp [hy]
    · rw [if_neg hj] at hy; exact hy
  refine ⟨h, ⟨ms', s.best⟩, by rw [decPop, e1, Option.map_some, hb], h1, e4, ?_, ?_, ?_, ?_⟩
  · intro hd; rw [e8, hd]; simpa using hbf hd
  · have ht := tot_change m D M I hi.sinv.sorted e3 (c := k) fun j hj => by rw [e7, if_neg hj]
    have h3 : subTot m D M I s.ms k = weight m M I h + subTot m D M I ms' k := by
      unfold subTot
      rw [e6, e7, if_pos rfl, List.map_cons, List.sum_cons, hb]
    show tot m D M I ms' + _ = _
    omega
  · intro hcomp c hcr hcc
    obtain ⟨w, hw, c', f1, f2, f3⟩ := hi.cov _ hnull c (by rw [back_stored]; exact hcr.ext) hcc
    rcases hw with hw | ⟨j, y, hy, rfl⟩
    · cases hw
    · obtain ⟨g, hg, hge⟩ := hi.sinv.el j y hy
      rw [hge, back_stored] at f1
      have hle : y.1 ≤ e.1 := by
        cases hd : D.breadthFirst with
        | false => exact e9 hd (hbf hd) j y hy
        | true => exact e10 hd (by rw [h2]; exact hcomp) j y hy
      have hsy := (hi.sinv.core.el j y hy).1
      have := hrk g h c' hg h1 hcomp f1 f2 (by rw [← hge, ← h2]; omega)
      omega
  · intro hcomp
    obtain ⟨hs, he⟩ := hsafe h h1
    refine ⟨hs, he, ⟨e2, e3, fun j y hy => hi.sinv.el j y (hmem' j y hy)⟩, ⟨by dsimp only; rw [e5]; exact hi.best.none, by dsimp only; rw [e5]; exact hi.best.some⟩,
      fun j y hy => hi.inP j y (hmem' j y hy), hi.pR, ?_, ?_, fun x hx => .step h1 he (by simpa using hx)⟩
    · intro p hp c hx hc
      obtain ⟨w, hw, c', f1, f2, f3⟩ := hi.cov p hp c hx hc
      rcases hw with hw | ⟨j, y, hy, rfl⟩
      · cases hw
      · rcases hmem j y hy with rfl | hy'
        · rw [hb] at f1
          rcases f1.head with rfl | ⟨hs', h', g1, g2, g3⟩
          · exact absurd f2 hcomp
          · rw [he] at g1; cases g1
            exact ⟨h', Or.inl (by simpa using g2), c', g3, f2, f3⟩
        · exact ⟨_, Or.inr ⟨j, y, hy', rfl⟩, c', f1, f2, f3⟩
    · rcases hi.bs with hb' | ⟨j, y, hy, hyc, hyb⟩
      · exact Or.inl hb'
      · rcases hmem j y hy with rfl | hy'
        · exact absurd (show Complete I h by unfold Complete; rw [h2] at hyc; exact hyc) hcomp
        · exact Or.inr ⟨j, y, hy', hyc, hyb⟩

/-- Nothing is better than the result. -/
def Best (m : Mode) (M : Model) (I : Input) (r : Hyp) : Prop :=
  ∀ c, Reach m M I c → Complete I c → Complete I r ∧ c.score ≤ r.score

theorem oloop {m : Mode} {D : Dec S} {M : Model} {I : Input} (hsafe : Safe m M I) (hct : StateContract m D M I)
    (hir : InRange m D M I) (hrk : Ranks m D M I) (hI1 : D.I = 1) : ∀ (k : Nat) {L : Loop S} {P : List (MultiStack.Hyp S HypData)},
    L.ended = false → OInv m D M I P [] L.s → stored D M I.src.length (nullHyp M) ∈ P → tot m D M I L.s.ms < k →
    tot m D M I L.s.ms ≤ L.s.ms.max → (D.breadthFirst = false → L.s.ms.bf = false) →
    ∃ L', decLoop m D M I k L = some L' ∧ Best m M I L'.result ∧ L'.ended = true
  | 0, L, P, _, _, _, h, _, _ => by omega
  | k + 1, L, P, he, hi, hn, hk, hmax, hbf => by
    unfold decLoop
    rw [he, if_neg (by simp), hI1]
    cases hem : MultiStack.empty L.s.ms with
    | true =>
      refine ⟨⟨true, L.result, L.s⟩, by simp [popUpTo, hem], ?_, rfl⟩
      intro c hr hc
      obtain ⟨w, hw, _⟩ := hi.cov _ hn c (by rw [back_stored]; exact hr.ext) hc
      rcases hw with hw | ⟨j, y, hy, _⟩
      · cases hw
      · rw [(empty_iff hi.sinv.sorted).1 hem j] at hy; cases hy
    | false =>
      obtain ⟨h, s1, e1, e2, e3, e4, e5, e6, e7⟩ := opop hsafe hrk hi hn hem hbf
      have hpop : popUpTo D M I.src.length 1 L.s = some ([h], s1) := by
        simp [popUpTo, hem, e1]
      rw [hpop]
      dsimp only
      have hw := weight_pos m M I h
      by_cases hc : isComplete I.src.length h.data = true
      · have hh : handleAll m D M I [h] ⟨false, L.result, s1⟩ = some ⟨true, h, s1⟩ := by
          simp [handleAll, handle, hc]
        rw [hh]
        refine ⟨⟨true, h, s1⟩, ?_, fun c hr hcc => ⟨hc, e6 hc c hr hcc⟩, rfl⟩
        cases k <;> simp [decLoop]
      · obtain ⟨hs, f1, f2⟩ := e7 hc
        have hwe := weight_expand e2 f1
        have hsum : (hs.reverse.map (weight m M I)).sum = (hs.map (weight m M I)).sum := by
          rw [List.map_reverse, List.sum_reverse]
        obtain ⟨s2, P2, g1, g2, g3, g4, g5, g6⟩ := opushAll hct hir hrk hs.reverse f2 (by omega)
        have hh : handleAll m D M I [h] ⟨false, L.result, s1⟩ =
            some ⟨false, updateResult m I.src.length L.result h, s2⟩ := by
          simp [handleAll, handle, hc, f1, g1]
        rw [hh]
        dsimp only
        exact oloop hsafe hct hir hrk hI1 k rfl g2 (g3 _ hn) (by dsimp only; omega) (by dsimp only; omega)
          (fun hd => by dsimp only; rw [g5]; exact e4 hd)

theorem ranks_admissible {m : Mode} {D : Dec S} {M : Model} {I : Input} (hbf : D.breadthFirst = false) (ha : Admissible m M I) :
    Ranks m D M I := by
  intro h e c h1 h2 h3 h4 h5 h6
  have hb := ha.bound h c h1 h4 h5
  have hz := ha.zero e h2 h3
  simp only [stored, extra, hbf] at h6
  simp at h6
  omega

theorem complete_dist {I : Input} {d : HypData} (hc : isComplete I.src.length d = true) : distToNull I.src.length d = I.src.length := by
  simp only [isComplete, beq_iff_eq] at hc
  simp only [distToNull, hc]
  simp only [uncovered, nullData, List.map_nil, List.sum_nil]
  omega

theorem ranks_breadth {m : Mode} {D : Dec S} {M : Model} {I : Input} (hb : BreadthFirst m D M I) : Ranks m D M I := by
  intro h e c h1 h2 h3 h4 h5 h6
  by_cases hc : Complete I h
  · have := h4.of_complete h1 hc
    subst this
    have z1 := hb.zero h h1 hc
    have z2 := hb.zero e h2 h3
    simp only [stored, extra, complete_dist hc, complete_dist h3] at h6
    omega
  · have := hb.dom h e h1 h2 hc h3
    omega

theorem optimal_core {m : Mode} {D : Dec S} {M : Model} {I : Input} (hsafe : Safe m M I) (hl : lengthsOk m I = true)
    (hct : StateContract m D M I) (hir : InRange m D M I) (hrk : Ranks m D M I) (hI1 : D.I = 1)
    {ms : MultiStack.MS S HypData} (hbf : D.breadthFirst = false → ms.bf = false)
    (hmax : weight m M I (nullHyp M) ≤ ms.max) (hit : weight m M I (nullHyp M) + 1 < D.maxIter) :
    ∃ L, translate m D M I ms = some L ∧ Best m M I L.result ∧ L.ended = true := by
  have hw := weight_pos m M I (nullHyp M)
  have htot : tot m D M I (MultiStack.clearAll ms) = 0 := by simp [tot, MultiStack.clearAll, MultiStack.clear]
  have h0 : OInv m D M I [] [nullHyp M] (⟨MultiStack.clearAll ms, D.worst⟩ : DState S) :=
    ⟨sinv_clear m D M I ms _, ⟨fun st _ h hh => (by simp at hh), fun st i sc h => by simp [MultiStack.clearAll, lk] at h⟩,
      fun k e he => (by cases he), fun p hp => (by simp at hp), fun p hp => (by simp at hp), Or.inl rfl,
      fun h hh => by rw [List.mem_singleton.1 hh]; exact .null⟩
  have hmx : (MultiStack.clearAll ms).max = ms.max := rfl
  obtain ⟨ok, s1, P1, e1, e2, _, e3, e4, e5, e6, e7⟩ := opush hct hir hrk h0 (by
    show tot m D M I (MultiStack.clearAll ms) < (MultiStack.clearAll ms).max; omega)
  dsimp only at e4 e5 e6
  -- the null hypothesis was pushed
  have hnP : stored D M I.src.length (nullHyp M) ∈ P1 :=
    e7 fun hp => hir.worst hp _ .null
  unfold translate
  rw [if_pos hl, e1]
  exact oloop hsafe hct hir hrk hI1 (D.maxIter - 1) (L := ⟨false, nullHyp M, s1⟩) rfl e2 hnP
    (by dsimp only; omega) (by dsimp only; omega) (fun hd => by dsimp only; rw [e5]; exact hbf hd)

/-! ### C86 -/

/-- Best-first search (`breadthFirst` false, and the container not left in breadth-first mode by an earlier search) with
`I = 1`, an admissible heuristic, states satisfying their contract and room for all hypotheses returns a complete
hypothesis with the highest score, with or without best-score pruning, if there is a complete hypothesis. -/
theorem C86_best_first_partial {m : Mode} {M : Model} {I : Input} (hI : m = .trans → FromRaw I)
    (hl : lengthsOk m I = true) : ∃ B, ∀ (D : Dec S) (ms : MultiStack.MS S HypData), D.breadthFirst = false → ms.bf = false →
      D.I = 1 → B ≤ ms.max → B < D.maxIter → StateContract m D M I → InRange m D M I → Admissible m M I →
      ∃ L, translate m D M I ms = some L ∧
        ((∃ c, Reach m M I c ∧ isComplete I.src.length c.data = true) →
          Reach m M I L.result ∧ isComplete I.src.length L.result.data = true ∧
          ∀ c, Reach m M I c → isComplete I.src.length c.data = true → c.score ≤ L.result.score) := by
  refine ⟨weight m M I (nullHyp M) + 1, fun D ms h1 h2 h3 h4 h5 h6 h7 h8 => ?_⟩
  obtain ⟨L, e1, e2, _⟩ := optimal_core (safe_of hI hl) hl h6 h7 (ranks_admissible h1 h8) h3 (fun _ => h2) (by omega) (by omega)
  obtain ⟨L', f1, f2, _⟩ := C85_result (M := M) D hI ms
  rw [e1] at f1; cases f1
  refine ⟨L, e1, fun ⟨c, c1, c2⟩ => ⟨f2, (e2 c c1 c2).1, fun c' h h' => (e2 c' h h').2⟩⟩

/-- Breadth-first search with `I = 1` does so, too, without any condition on the heuristic of incomplete hypotheses. -/
theorem C86_breadth_first_partial {m : Mode} {M : Model} {I : Input} (hI : m = .trans → FromRaw I)
    (hl : lengthsOk m I = true) : ∃ B, ∀ (D : Dec S) (ms : MultiStack.MS S HypData), 
      D.I = 1 → B ≤ ms.max → B < D.maxIter → StateContract m D M I → InRange m D M I → BreadthFirst m D M I →
      ∃ L, translate m D M I ms = some L ∧
        ((∃ c, Reach m M I c ∧ isComplete I.src.length c.data = true) →
          Reach m M I L.result ∧ isComplete I.src.length L.result.data = true ∧
          ∀ c, Reach m M I c → isComplete I.src.length c.data = true → c.score ≤ L.result.score) := by
  refine ⟨weight m M I (nullHyp M) + 1, fun D ms h3 h4 h5 h6 h7 h8 => ?_⟩
  obtain ⟨L, e1, e2, _⟩ := optimal_core (ms := ms) (safe_of hI hl) hl h6 h7 (ranks_breadth h8) h3
    (fun h => by rw [h8.on] at h; cases h) (by omega) (by omega)
  obtain ⟨L', f1, f2, _⟩ := C85_result (M := M) D hI ms
  rw [e1] at f1; cases f1
  refine ⟨L, e1, fun ⟨c, c1, c2⟩ => ⟨f2, (e2 c c1 c2).1, fun c' h h' => (e2 c' h h').2⟩⟩

/-- Hence `translate` finds a translation of every sentence (whose constraints do not use `UNKNOWN_WORD`). -/
theorem C86_found_partial {M : Model} {I : Input} (hI : FromRaw I) (hl : lengthsOk .trans I = true) (hA : 1 ≤ M.A)
    (hW : WOk M.W) (hU : UnkFree I.md) : ∃ B, ∀ (D : Dec S) (ms : MultiStack.MS S HypData), D.breadthFirst = false →
      ms.bf = false → D.I = 1 → B ≤ ms.max → B < D.maxIter → StateContract .trans D M I → InRange .trans D M I →
      Admissible .trans M I → ∃ L, translate .trans D M I ms = some L ∧
        isComplete I.src.length L.result.data = true := by
  obtain ⟨B, hB⟩ := C86_best_first_partial (S := S) (M := M) (fun _ => hI) hl
  refine ⟨B, fun D ms h1 h2 h3 h4 h5 h6 h7 h8 => ?_⟩
  obtain ⟨L, e1, e2⟩ := hB D ms h1 h2 h3 h4 h5 h6 h7 h8
  obtain ⟨c, c1, c2⟩ := C83_exists_partial hI hA hW hU
  exact ⟨L, e1, (e2 ⟨c, c1, c2⟩).2.1⟩

/-! ### The hypotheses are satisfiable -/

/-- Expansion depends on the score only by adding to it. -/
theorem expandMode_shift {m : Mode} {M : Model} {I : Input} {h g : Hyp} {hs : List Hyp} (hd : h.data = g.data)
    (he : expandMode m M I h = some hs) :
    ∃ ds : List HypData, hs = ds.map (incrScore M h) ∧ expandMode m M I g = some (ds.map (incrScore M g)) := by
  cases m with
  | trans =>
    simp only [expandMode, expand, ← hd] at he ⊢
    split at he
    · cases he
    · rename_i ds hds
      cases he
      exact ⟨ds, rfl, rfl⟩
  | ref =>
    simp only [expandMode, expandWith, ← hd] at he ⊢
    split at he
    · cases he
    · rename_i ds hds
      cases he
      exact ⟨ds.flatten, rfl, rfl⟩
  | ver =>
    simp only [expandMode, expandWith, ← hd] at he ⊢
    split at he
    · cases he
    · rename_i ds hds
      cases he
      exact ⟨ds.flatten, rfl, rfl⟩
  | pref =>
    simp only [expandMode, expandWith, ← hd] at he ⊢
    split at he
    · cases he
    · rename_i ds hds
      cases he
      exact ⟨ds.flatten, rfl, rfl⟩

/-- The contract of the states holds whenever the state determines the data of the hypothesis. -/
theorem stateContract_of_inj {m : Mode} {D : Dec S} {M : Model} {I : Input} (hinj : ∀ d d', D.st d = D.st d' → d = d') :
    StateContract m D M I where
  complete := fun h g _ _ hs => by rw [hinj _ _ hs]
  extra := fun h g _ _ hs => by rw [hinj _ _ hs]
  step := fun h g hs h' _ _ hst he hm => by
    have hd := hinj _ _ hst
    obtain ⟨ds, e1, e2⟩ := expandMode_shift hd he
    rw [e1] at hm
    obtain ⟨d, hd1, rfl⟩ := List.mem_map.1 hm
    exact ⟨_, incrScore M g d, e2, List.mem_map.2 ⟨d, hd1, rfl⟩, rfl, by simp only [incrScore, hd]; omega⟩

theorem ext_score_le {m : Mode} {M : Model} {I : Input} (hn : ∀ d d', M.extScore d d' ≤ 0) {h c : Hyp} (hx : Ext m M I h c) :
    c.score ≤ h.score := by
  induction hx with
  | refl => exact Int.le_refl _
  | step _ he hm ih =>
    obtain ⟨l, r, trg, _, _, _, _, _, _, _, hs⟩ := C81_expand he hm
    exact Int.le_trans (by rw [hs]; exact Int.add_le_of_le_sub_left (by rw [Int.sub_self]; exact hn _ _)) ih

/-- The null heuristic is admissible when no extension has a positive score. -/
theorem admissible_zero {m : Mode} {M : Model} {I : Input} (hn : ∀ d d', M.extScore d d' ≤ 0) (hh : ∀ d, M.heur d = 0) :
    Admissible m M I where
  bound := fun h c _ hx _ => by have := ext_score_le hn hx; rw [hh]; omega
  zero := fun c _ _ => hh _

/-- Words `a b` translated by `x y`, or as a phrase by `z`. -/
def exO : Model where
  A := 2
  E := 1
  U := 5
  W := .best 10
  opts := fun s => if s = ["a".toList] then [["x".toList]] else if s = ["b".toList] then [["y".toList]]
    else if s = ["a".toList, "b".toList] then [["z".toList]] else []
  phrScore := fun _ t => -(t.length : Int)
  extScore := fun _ d => if d.ntarget = [nullWord, "x".toList] then -1 else if d.ntarget = [nullWord, "x".toList, "y".toList] then 0
    else if d.ntarget = [nullWord, "z".toList] then -2 else -5
  heur := fun _ => 0

def exOInput : Input where
  src := ["a".toList, "b".toList]
  md := ⟨["a".toList, "b".toList], []⟩

def exDec (I : Nat) (maxIter : Nat) : Dec HypData where
  I := I
  breadthFirst := false
  pruning := true
  minScore := -1000
  worst := -1000
  maxIter := maxIter
  G := -100000000
  st := id
  cls := fun d => if d.ntarget = [nullWord, "z".toList] then 0 else 1

theorem exO_neg (d d' : HypData) : exO.extScore d d' ≤ 0 := by
  show (if _ then _ else _ : Int) ≤ 0
  split
  · omega
  · split
    · omega
    · split <;> omega


/-! ### Without the conditions on `I` and on the container -/

/-- The claim for every `I` and for a container that an earlier search may have left in breadth-first mode, with room for
all hypotheses. -/
def C86_full : Prop := ∀ (M : Model) (I : Input), FromRaw I → lengthsOk .trans I = true →
  ∀ (D : Dec HypData) (ms : MultiStack.MS HypData HypData), D.breadthFirst = false → 1 ≤ D.I →
    weight .trans M I (nullHyp M) ≤ ms.max → weight .trans M I (nullHyp M) + 1 < D.maxIter →
    StateContract .trans D M I → InRange .trans D M I → Admissible .trans M I →
    ∀ L, translate .trans D M I ms = some L → ∀ c, Reach .trans M I c → isComplete I.src.length c.data = true →
      c.score ≤ L.result.score

theorem exO_fromRaw : FromRaw exOInput := ⟨"a b".toList, by decide +kernel, by decide +kernel⟩

theorem exO_contract (i n : Nat) : StateContract .trans (exDec i n) exO exOInput := stateContract_of_inj fun _ _ h => h

theorem exO_admissible : Admissible .trans exO exOInput := admissible_zero exO_neg fun _ => rfl

/-- The hypotheses of `exO` after at most `k` expansions. -/
def exReach : Nat → List Hyp
  | 0 => [nullHyp exO]
  | k + 1 => exReach k ++ (exReach k).flatMap fun h => (expandMode .trans exO exOInput h).getD []

theorem exO_reach {h : Hyp} (hr : Reach .trans exO exOInput h) : h ∈ exReach 2 := by
  induction hr with
  | null => decide +kernel
  | @step a b hs _ he hm ih =>
    have hcl : ∀ x ∈ exReach 2, ∀ y ∈ (expandMode .trans exO exOInput x).getD [], y ∈ exReach 2 := by decide +kernel
    exact hcl a ih b (by rw [he]; exact hm)

theorem exO_inRange (i n : Nat) : InRange .trans (exDec i n) exO exOInput where
  min := fun h hr => by
    have : ∀ x ∈ exReach 2, (-1000 : Int) ≤ x.score := by decide +kernel
    exact this h (exO_reach hr)
  worst := fun _ h hr => by
    have : ∀ x ∈ exReach 2, (-1000 : Int) ≤ x.score := by decide +kernel
    have := this h (exO_reach hr)
    simp [stored, extra, exDec, exO]
    exact this

/-- The best translation of `a b`: `x y`. -/
def exBest : Hyp := ⟨-1, ⟨[nullWord, "x".toList, "y".toList], [(1, 1), (2, 2)], [1, 2]⟩⟩

theorem exBest_reach : Reach .trans exO exOInput exBest := by
  refine .step (h := ⟨-1, ⟨[nullWord, "x".toList], [(1, 1)], [1]⟩⟩) (.step .null (hs := (expandMode .trans exO exOInput (nullHyp exO)).getD []) (by decide +kernel) (by decide +kernel))
    (hs := (expandMode .trans exO exOInput ⟨-1, ⟨[nullWord, "x".toList], [(1, 1)], [1]⟩⟩).getD []) (by decide +kernel) (by decide +kernel)

/-- With `I = 2` the phrase translation `z` is popped together with the incomplete `x` and wins. -/
theorem C86_counterexample : ¬ C86_full := by
  intro H
  have h := H exO exOInput exO_fromRaw (by decide +kernel) (exDec 2 100) { MultiStack.new [] with max := 100 } rfl (by decide)
    (by decide +kernel) (by decide +kernel) (exO_contract _ _) (exO_inRange _ _) exO_admissible
  have hs : ∃ L, translate .trans (exDec 2 100) exO exOInput { MultiStack.new [] with max := 100 } = some L ∧ L.result.score = -2 := by
    have : (translate .trans (exDec 2 100) exO exOInput { MultiStack.new [] with max := 100 }).map (fun L => L.result.score) = some (-2) := by
      decide +kernel
    cases ht : translate .trans (exDec 2 100) exO exOInput { MultiStack.new [] with max := 100 } with
    | none => rw [ht] at this; cases this
    | some L => rw [ht] at this; exact ⟨L, rfl, by simpa using this⟩
  obtain ⟨L, e1, e2⟩ := hs
  have := h L e1 exBest exBest_reach (by decide +kernel)
  rw [e2] at this
  revert this
  decide

/-- With `I = 1`, too, if the container was left in breadth-first mode: class 0 holds `z`. -/
theorem C86_counterexample_container : (translate .trans (exDec 1 100) exO exOInput
    { MultiStack.new [] with max := 100, bf := true }).map (fun L => L.result.score) = some (-2) := by decide +kernel

/-- `exO` meets the hypotheses of `C86_best_first_partial` and has several translations, found in the right order. -/
example : FromRaw exOInput ∧ lengthsOk .trans exOInput = true ∧ StateContract .trans (exDec 1 100) exO exOInput ∧
    InRange .trans (exDec 1 100) exO exOInput ∧ Admissible .trans exO exOInput ∧
    (exReach 2).length = 9 ∧ (translate .trans (exDec 1 100) exO exOInput { MultiStack.new [] with max := 100 }).map
      (fun L => L.result) = some exBest :=
  ⟨exO_fromRaw, by decide +kernel, exO_contract _ _, exO_inRange _ _, exO_admissible, by decide +kernel, by decide +kernel⟩

/-- `exO` meets the hypotheses of `C86_breadth_first_partial`. -/
example : BreadthFirst .trans { exDec 1 100 with breadthFirst := true, worst := -10 ^ 10 } exO exOInput where
  on := rfl
  dom := fun h c hr hc h1 h2 => by
    have : ∀ x ∈ exReach 2, ∀ y ∈ exReach 2, ¬ Complete exOInput x → Complete exOInput y →
        (stored { exDec 1 100 with breadthFirst := true, worst := -10 ^ 10 } exO exOInput.src.length y).score <
        (stored { exDec 1 100 with breadthFirst := true, worst := -10 ^ 10 } exO exOInput.src.length x).score := by
      unfold Complete
      decide +kernel
    exact this h (exO_reach hr) c (exO_reach hc) h1 h2
  zero := fun _ _ _ => rfl

/-- `getNextTrans` gives the second and the third translation, and then there are no more. -/
example : ((translate .trans (exDec 1 100) exO exOInput { MultiStack.new [] with max := 100 }).bind fun L =>
    (nextTrans .trans (exDec 1 100) exO exOInput L.s).bind fun L1 =>
    (nextTrans .trans (exDec 1 100) exO exOInput L1.s).map fun L2 =>
      (L1.result.score, isComplete 2 L1.result.data, L2.result.score, L2.ended, MultiStack.empty L2.s.ms)) =
    some (-2, true, -10, true, true) := by decide +kernel

end Thot.Search
