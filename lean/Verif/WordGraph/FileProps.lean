import Verif.WordGraph.FileLemmas
/-! C168, C169: a word graph that is printed and loaded again. -/
namespace Thot.WordGraph
open Thot.Vocab (showNat atoi toWordIndex showNat_digits digit_dig)
open Thot.SentHandler (Word Line cut_word fields_join line_join)
open Thot.AligFile (word_showNat line_sp wi_nat)

/-! ### Specification -/

/-- The graph can be written: the words are not empty and have no blanks, newlines or NULs, the first word of an arc without score
components is not `|||`, the names of the weights are words, the numbers of the states are `int`s, and the final states are a set. -/
structure Printable (g : WG) : Prop where
  words : ∀ a ∈ g.arcs, ∀ w ∈ a.words, Word w
  bars : ∀ (i : Nat) (a : Arc), g.arcs[i]? = some a → g.comps[i]? = some [] → a.words.head? ≠ some ['|', '|', '|']
  pred : ∀ a ∈ g.arcs, a.pred < 2 ^ 31
  succ : ∀ a ∈ g.arcs, a.succ < 2 ^ 31
  names : ∀ p ∈ g.weights, Word p.1
  final : g.final.Pairwise (· < ·)

/-- The arcs that are printed, in the order of their numbers: the ones not pruned or, if only useful states are printed, the ones that
are on a complete path of arcs not pruned. -/
structure Printed (g : WG) (onlyUseful : Bool) (K : List Nat) : Prop where
  sorted : K.Pairwise (· < ·)
  mem : ∀ i, i ∈ K ↔ ∃ a, Live g i a ∧ (onlyUseful = true → ∃ p, Complete g (Live g) p ∧ (i, a) ∈ p)

/-- Hypotheses under which the useful states are right (C59). -/
def UsefulOk (g : WG) : Prop := Topo g ∧ FinalOk g ∧ FinalsReachable g ∧ NoArcToInit g ∧ g.arcs ≠ []

/-- Every printed arc leaves a state whose number is not greater than the one it enters, or the one entered by a printed arc before it. -/
def Loadable (g : WG) (K : List Nat) : Prop :=
  ∀ (k i : Nat) (a : Arc), K[k]? = some i → g.arcs[i]? = some a → a.pred ≤ a.succ ∨
    ∃ (j i' : Nat) (b : Arc), j < k ∧ K[j]? = some i' ∧ g.arcs[i']? = some b ∧ a.pred ≤ b.succ

/-- The format of numbers: a word other than `|||`. -/
def Fmt (fmt : Score → Str) : Prop := ∀ x, Word (fmt x) ∧ fmt x ≠ ['|', '|', '|']

theorem word_one : Word ['1'] := ⟨by decide, by decide⟩

theorem fmt_one : Fmt fun _ => ['1'] := fun _ => ⟨word_one, show ['1'] ≠ ['|', '|', '|'] by decide⟩

/-! ### The file -/

theorem showNat_ne_hash (n : Nat) : showNat n ≠ ['#'] := by
  intro h
  have : '#' ∈ showNat n := by rw [h]; decide
  obtain ⟨m, hm⟩ := showNat_digits n _ this
  have h1 := (digit_dig m).1
  rw [← hm] at h1; exact absurd h1 (by decide)

theorem loadHead_eq (atof : Str → Score) {fmtW : Score → Str} (hf : ∀ x, Word (fmtW x)) (ws : List (Str × Score)) (h : ∀ p ∈ ws, Word p.1)
    (fs : List Nat) (r : Str) :
    loadHead atof (printWeights fmtW ws ++ ((fs.map showNat).flatMap (· ++ [' ']) ++ '\n' :: r)) =
      (ws.map fun p => (p.1, atof (fmtW p.2)), (fs.map showNat).flatMap (· ++ [' ']), r) := by
  have hwf : ∀ w ∈ fs.map showNat, Word w := by
    intro w hw; obtain ⟨n, _, rfl⟩ := List.mem_map.1 hw; exact word_showNat n
  have hg : ∀ s, getlnK (s, (fs.map showNat).flatMap (· ++ [' ']) ++ '\n' :: r) = ((fs.map showNat).flatMap (· ++ [' ']), r) := by
    intro s
    unfold getlnK
    rw [Awk.getln_nl _ _ (line_sp hwf)]
  cases ws with
  | nil =>
    unfold loadHead printWeights
    rw [if_pos rfl, List.nil_append, hg]
    simp only
    rw [if_neg]
    · rfl
    · have : fl ((fs.map showNat).flatMap (· ++ [' '])) = fs.map showNat := by
        have := fields_app hwf []
        rwa [List.append_nil, Awk.fields_nil, List.append_nil] at this
      rw [show (1 : Nat) = 0 + 1 from rfl, ld_eq, this]
      cases fs with
      | nil => simp
      | cons f fs => simpa using showNat_ne_hash f
  | cons p ws =>
    have hne : pairToks fmtW (p :: ws) ≠ [] := by cases ws <;> simp [pairToks]
    have hpw := pairToks_word hf (p :: ws) h
    obtain ⟨x, y, hxy⟩ : ∃ x y, pairToks fmtW (p :: ws) = x :: y := by
      cases hp : pairToks fmtW (p :: ws) with
      | nil => exact absurd hp hne
      | cons x y => exact ⟨x, y, rfl⟩
    have e1 : '#' :: ' ' :: printPairs fmtW (p :: ws) = SentHandler.joinWords (['#'] :: pairToks fmtW (p :: ws)) := by
      rw [printPairs_eq, hxy]; simp [SentHandler.joinWords]
    have hww : ∀ w ∈ ['#'] :: pairToks fmtW (p :: ws), Word w := by
      intro w hw
      rcases List.mem_cons.1 hw with rfl | hw
      · exact ⟨by decide, by decide⟩
      · exact hpw w hw
    have e2 : fl ('#' :: ' ' :: printPairs fmtW (p :: ws)) = [['#']] ++ pairToks fmtW (p :: ws) := by
      rw [e1]; exact fields_join hww
    have e3 : Line ('#' :: ' ' :: printPairs fmtW (p :: ws)) := by rw [e1]; exact line_join hww
    have e0 : printWeights fmtW (p :: ws) = '#' :: ' ' :: (printPairs fmtW (p :: ws) ++ ['\n']) := by
      unfold printWeights; rw [if_neg (by simp)]
    unfold loadHead
    rw [e0]
    have e4 : ∀ z : Str, ('#' :: ' ' :: (printPairs fmtW (p :: ws) ++ ['\n'])) ++ z =
        ('#' :: ' ' :: printPairs fmtW (p :: ws)) ++ '\n' :: z := by intro z; simp
    rw [e4]
    have e5 : ∀ z : Str, getlnK ([], ('#' :: ' ' :: printPairs fmtW (p :: ws)) ++ '\n' :: z) =
        ('#' :: ' ' :: printPairs fmtW (p :: ws), z) := by
      intro z; unfold getlnK; rw [Awk.getln_nl _ _ e3]
    rw [e5]
    simp only
    have e6 : ld ('#' :: ' ' :: printPairs fmtW (p :: ws)) 1 = ['#'] := by
      rw [show (1 : Nat) = 0 + 1 from rfl, ld_eq, e2]; rfl
    rw [if_pos e6, hg]
    have := loadWeights_eq atof fmtW ('#' :: ' ' :: printPairs fmtW (p :: ws)) (p :: ws) [['#']]
      (lnf ('#' :: ' ' :: printPairs fmtW (p :: ws))) e2 (by
        rw [lnf_eq, e2]
        have : ∀ l : List (Str × Score), l.length ≤ (pairToks fmtW l).length := by
          intro l
          induction l with
          | nil => simp
          | cons q l ih => cases l with
            | nil => simp [pairToks]
            | cons q' l => rw [pairToks]; · simp at ih ⊢; omega
                           · simp
        have := this (p :: ws)
        simp only [List.length_append, List.length_singleton]; omega)
    rw [show (2 : Nat) = [['#']].length + 1 from rfl, this]

/-- Arcs and components in the order of a list of arc numbers. -/
def pick (g : WG) (K : List Nat) : List (Arc × List Score) :=
  K.filterMap fun i => match g.arcs[i]?, g.comps[i]? with
    | some a, some c => some (a, c)
    | _, _ => none

theorem printArcs_eq (fmt : Score → Str) (g : WG) (useful : Option (List Bool)) :
    ∀ (as : List Arc) (bs : List Bool) (cs : List (List Score)) (n : Nat),
    bs.length = as.length → cs.length = as.length →
    (∀ k, as[k]? = g.arcs[n + k]?) → (∀ k, bs[k]? = g.pruned[n + k]?) → (∀ k, cs[k]? = g.comps[n + k]?) →
    (∀ a ∈ as, ∃ b, arcUseful useful a = some b) →
    printArcs fmt useful as bs cs = some (arcsText fmt (pick g ((List.range' n as.length).filter fun i =>
      g.pruned[i]? == some false && (g.arcs[i]?.bind (arcUseful useful)) == some true))) := by
  intro as
  induction as with
  | nil => intro bs cs n _ _ _ _ _ _; simp [printArcs, pick, arcsText]
  | cons a as ih =>
    intro bs cs n hb hc ha1 hb1 hc1 hu
    match bs, cs, hb, hc with
    | b :: bs, c :: cs, hb, hc =>
      obtain ⟨k, hk⟩ := hu a List.mem_cons_self
      have ea : g.arcs[n]? = some a := (ha1 0).symm
      have eb : g.pruned[n]? = some b := (hb1 0).symm
      have ec : g.comps[n]? = some c := (hc1 0).symm
      have hs : ∀ k, n + (k + 1) = (n + 1) + k := by intro k; omega
      have := ih bs cs (n + 1) (by simpa using hb) (by simpa using hc)
        (fun k => by rw [← hs]; exact ha1 (k + 1)) (fun k => by rw [← hs]; exact hb1 (k + 1))
        (fun k => by rw [← hs]; exact hc1 (k + 1)) (fun x hx => hu x (List.mem_cons_of_mem _ hx))
      rw [printArcs, hk, this]
      simp only
      rw [List.length_cons, List.range'_succ]
      congr 1
      by_cases hkb : (k && !b) = true
      · rw [if_pos hkb, List.filter_cons_of_pos]
        · unfold pick
          rw [List.filterMap_cons, ea, ec]
          simp [arcsText, List.flatMap_cons]
        · rw [eb, ea, Option.bind_some, hk]
          revert hkb; cases b <;> cases k <;> decide
      · rw [if_neg hkb, List.filter_cons_of_neg]
        · rfl
        · rw [eb, ea, Option.bind_some, hk]
          revert hkb; cases b <;> cases k <;> decide

theorem sorted_ext {K L : List Nat} (hK : K.Pairwise (· < ·)) (hL : L.Pairwise (· < ·)) (h : ∀ i, i ∈ K ↔ i ∈ L) : K = L := by
  induction K generalizing L with
  | nil =>
    cases L with
    | nil => rfl
    | cons x L => exact absurd ((h x).2 List.mem_cons_self) (by simp)
  | cons x K ih =>
    cases L with
    | nil => exact absurd ((h x).1 List.mem_cons_self) (by simp)
    | cons y L =>
      have h1 : ∀ z ∈ K, x < z := fun z hz => List.rel_of_pairwise_cons hK hz
      have h2 : ∀ z ∈ L, y < z := fun z hz => List.rel_of_pairwise_cons hL hz
      have hxy : x = y := by
        rcases List.mem_cons.1 ((h x).1 List.mem_cons_self) with e | hx
        · exact e
        · rcases List.mem_cons.1 ((h y).2 List.mem_cons_self) with e | hy
          · exact e.symm
          · have := h1 y hy; have := h2 x hx; omega
      subst hxy
      rw [ih (List.Pairwise.of_cons hK) (List.Pairwise.of_cons hL)]
      intro i
      constructor
      · intro hi
        rcases List.mem_cons.1 ((h i).1 (List.mem_cons_of_mem _ hi)) with e | h3
        · have := h1 i hi; omega
        · exact h3
      · intro hi
        rcases List.mem_cons.1 ((h i).2 (List.mem_cons_of_mem _ hi)) with e | h3
        · have := h2 i hi; omega
        · exact h3

theorem path_split {P : Nat → Arc → Prop} {s t : Nat} {p : List (Nat × Arc)} (h : Path P s p t) {i : Nat} {a : Arc} (hm : (i, a) ∈ p) :
    ∃ p1 p2, P i a ∧ Path P s p1 a.pred ∧ Path P a.succ p2 t := by
  induction h with
  | nil s => cases hm
  | @cons j b p t hb hp ih =>
    rcases List.mem_cons.1 hm with e | hm
    · cases e
      exact ⟨[], p, hb, .nil _, hp⟩
    · obtain ⟨p1, p2, h1, h2, h3⟩ := ih hm
      exact ⟨(j, b) :: p1, p2, h1, .cons hb h2, h3⟩

theorem path_app {P : Nat → Arc → Prop} {s m t : Nat} {p q : List (Nat × Arc)} (h : Path P s p m) (h2 : Path P m q t) :
    Path P s (p ++ q) t := by
  induction h with
  | nil s => exact h2
  | cons hb _ ih => exact .cons hb (ih h2)

/-- What is written: the graph with the printed arcs. -/
theorem print_eq (fmt fmtW : Score → Str) {g : WG} (hw : WF g) {only : Bool} (ho : only = true → UsefulOk g) {K : List Nat}
    (hK : Printed g only K) :
    print fmt fmtW only g = some (printWeights fmtW g.weights ++
      (((g.final.filter (entered g)).map showNat).flatMap (· ++ [' ']) ++ '\n' :: arcsText fmt (pick g K))) := by
  unfold print
  rw [printFinals_eq hw]
  simp only
  cases only with
  | false =>
    rw [if_neg (by simp), printArcs_eq fmt g none g.arcs g.pruned g.comps 0 hw.pruned hw.comps (by simp) (by simp) (by simp)
      (fun a _ => ⟨true, rfl⟩), Option.map_some]
    congr 5
    rw [← List.range_eq_range']
    refine congrArg (pick g) ?_
    apply sorted_ext (List.Pairwise.filter _ List.pairwise_lt_range) hK.sorted
    intro i
    rw [hK.mem, List.mem_filter, List.mem_range]
    constructor
    · rintro ⟨hi, h⟩
      rw [List.getElem?_eq_getElem hi] at h
      simp only [Bool.and_eq_true, beq_iff_eq] at h
      exact ⟨g.arcs[i], ⟨List.getElem?_eq_getElem hi, h.1⟩, by simp⟩
    · rintro ⟨a, ⟨h1, h2⟩, _⟩
      refine ⟨(List.getElem?_eq_some_iff.1 h1).1, ?_⟩
      rw [h1, h2]; simp [arcUseful]
  | true =>
    obtain ⟨ht, hf, hfr, hni, hne⟩ := ho rfl
    have hs0 : initialState < g.states.length := by
      cases harcs : g.arcs with
      | nil => exact absurd harcs hne
      | cons a l => have := hw.pred 0 a (by rw [harcs]; rfl); exact Nat.lt_of_le_of_lt (Nat.zero_le _) this
    obtain ⟨u, hu1, hu2, hu3, hu4⟩ := useful_ok ht hw hf hs0 hfr hni
    rw [if_pos rfl, hu1]
    simp only
    have hau : ∀ (i : Nat) (a : Arc), g.arcs[i]? = some a → arcUseful (some u) a = some (u[a.pred]? == some true && u[a.succ]? == some true) := by
      intro i a h
      have h1 : a.pred < u.length := by rw [hu2]; exact hw.pred i a h
      have h2 : a.succ < u.length := by rw [hu2]; exact hw.succ i a h
      simp only [arcUseful]
      rw [List.getElem?_eq_getElem h1, List.getElem?_eq_getElem h2]
      cases u[a.pred] <;> cases u[a.succ] <;> rfl
    rw [printArcs_eq fmt g (some u) g.arcs g.pruned g.comps 0 hw.pruned hw.comps (by simp) (by simp) (by simp)
      (fun a ha => by
        obtain ⟨i, hi⟩ := List.getElem?_of_mem ha
        exact ⟨_, hau i a hi⟩), Option.map_some]
    congr 5
    rw [← List.range_eq_range']
    refine congrArg (pick g) ?_
    apply sorted_ext (List.Pairwise.filter _ List.pairwise_lt_range) hK.sorted
    intro i
    rw [hK.mem, List.mem_filter, List.mem_range]
    constructor
    · rintro ⟨hi, h⟩
      have he := List.getElem?_eq_getElem hi
      rw [he, Option.bind_some, hau i _ he] at h
      simp only [Bool.and_eq_true, beq_iff_eq, Option.some.injEq] at h
      have hl : Live g i g.arcs[i] := ⟨he, h.1⟩
      refine ⟨g.arcs[i], hl, fun _ => ?_⟩
      obtain ⟨p1, _, _, _, h1, _, _⟩ := hu3 _ h.2.1
      obtain ⟨_, q2, f, hff, _, h2, _⟩ := hu3 _ h.2.2
      exact ⟨p1 ++ (i, g.arcs[i]) :: q2, ⟨f, hff, path_app h1 (.cons hl h2)⟩, by simp⟩
    · rintro ⟨a, hl, hp⟩
      obtain ⟨p, ⟨f, hff, hp⟩, hm⟩ := hp rfl
      obtain ⟨p1, p2, _, h1, h2⟩ := path_split hp hm
      refine ⟨(List.getElem?_eq_some_iff.1 hl.1).1, ?_⟩
      rw [hl.1, hl.2, Option.bind_some, hau i a hl.1]
      have e1 := hu4 p1 ((i, a) :: p2) f a.pred hff h1 (.cons hl h2) (by simp)
      have e2 := hu4 (p1 ++ [(i, a)]) p2 f a.succ hff (path_app h1 (.cons hl (.nil _))) h2 (by simp)
      rw [e1, e2]; rfl

/-! ### The round trip -/

theorem pick_some {g : WG} (hw : WF g) : ∀ K : List Nat, (∀ i ∈ K, i < g.arcs.length) →
    (pick g K).length = K.length ∧ ((pick g K).map Prod.fst).map some = K.map (fun i => g.arcs[i]?) ∧
      ((pick g K).map Prod.snd).map some = K.map (fun i => g.comps[i]?) := by
  intro K
  induction K with
  | nil => intro _; exact ⟨rfl, rfl, rfl⟩
  | cons i K ih =>
    intro h
    have hi := h i List.mem_cons_self
    have hc : i < g.comps.length := by rw [hw.comps]; exact hi
    obtain ⟨h1, h2, h3⟩ := ih fun j hj => h j (List.mem_cons_of_mem _ hj)
    have : pick g (i :: K) = (g.arcs[i], g.comps[i]) :: pick g K := by
      unfold pick
      rw [List.filterMap_cons, List.getElem?_eq_getElem hi, List.getElem?_eq_getElem hc]
    rw [this]
    simp [h1, h2, h3, List.getElem?_eq_getElem hi, List.getElem?_eq_getElem hc]

theorem pick_mem {g : WG} {K : List Nat} {e : Arc × List Score} (h : e ∈ pick g K) :
    ∃ i ∈ K, g.arcs[i]? = some e.1 ∧ g.comps[i]? = some e.2 := by
  unfold pick at h
  obtain ⟨i, hi, h⟩ := List.mem_filterMap.1 h
  split at h
  · next a c h1 h2 => cases h; exact ⟨i, hi, h1, h2⟩
  · cases h

theorem load_print (fmt fmtW : Score → Str) (atof : Str → Score) (hf : Fmt fmt) (hfw : ∀ x, Word (fmtW x)) {g : WG}
    (hp : Printable g) {K : List Nat} (old : WG) :
    load atof old (printWeights fmtW g.weights ++
      (((g.final.filter (entered g)).map showNat).flatMap (· ++ [' ']) ++ '\n' :: arcsText fmt (pick g K))) =
    addAll ((pick g K).map (reread fun x => atof (fmt x)))
      { new with weights := g.weights.map fun p => (p.1, atof (fmtW p.2)), final := g.final.filter (entered g) } := by
  have hent : ∀ f ∈ g.final.filter (entered g), f < 2 ^ 31 := by
    intro f h
    obtain ⟨i, a, hl, rfl⟩ := (entered_iff g f).1 (List.mem_filter.1 h).2
    exact hp.succ a (List.mem_of_getElem? hl.1)
  unfold load
  rw [loadHead_eq atof hfw g.weights hp.names]
  simp only
  have hfl : fl (((g.final.filter (entered g)).map showNat).flatMap (· ++ [' '])) = (g.final.filter (entered g)).map showNat := by
    have := fields_app (ws := (g.final.filter (entered g)).map showNat) (by
      intro w hw; obtain ⟨n, _, rfl⟩ := List.mem_map.1 hw; exact word_showNat n) []
    rwa [List.append_nil, Awk.fields_nil, List.append_nil] at this
  have h1 := loadFinals_eq _ (g.final.filter (entered g)) [] [] hfl hent (hp.final.filter _) (by simp)
  have h2 : lnf (((g.final.filter (entered g)).map showNat).flatMap (· ++ [' '])) = (g.final.filter (entered g)).length := by
    rw [lnf_eq, hfl]; simp
  rw [h2]
  rw [show ([] : List Nat).length + 1 = 1 from rfl] at h1
  rw [h1]
  simp only [List.nil_append]
  refine loadLoop_eq atof hf (pick g K) _ _ ?_ (by simp only [List.length_append, List.length_cons]; omega)
  intro e he
  obtain ⟨i, _, h1, h2⟩ := pick_mem he
  have hm := List.mem_of_getElem? h1
  exact ⟨hp.words _ hm, hp.pred _ hm, hp.succ _ hm, fun hc => hp.bars i _ h1 (by rw [h2, hc])⟩

theorem getElem?_of_map_some {α β : Type} {l : List α} {K : List β} {f : β → Option α} (h : l.map some = K.map f) (k : Nat) :
    l[k]? = K[k]?.bind f := by
  have h1 : (l.map some)[k]? = (K.map f)[k]? := by rw [h]
  rw [List.getElem?_map, List.getElem?_map] at h1
  cases hl : l[k]? with
  | none => rw [hl] at h1; cases hk : K[k]? with
    | none => rfl
    | some i => rw [hk] at h1; cases h1
  | some a => rw [hl] at h1; cases hk : K[k]? with
    | none => rw [hk] at h1; cases h1
    | some i => rw [hk] at h1; simpa using h1

theorem printed_lt {g : WG} {only : Bool} {K : List Nat} (hK : Printed g only K) : ∀ i ∈ K, i < g.arcs.length := by
  intro i hi
  obtain ⟨a, hl, _⟩ := (hK.mem i).1 hi
  exact (List.getElem?_eq_some_iff.1 hl.1).1

theorem addable_iff {g : WG} (hw : WF g) {K : List Nat} (h : ∀ i ∈ K, i < g.arcs.length) (rt : Score → Score) :
    Addable 0 (((pick g K).map (reread rt)).map Prod.fst) ↔ Loadable g K := by
  have hgk := getElem?_of_map_some (pick_some hw K h).2.1
  have hg2 : ∀ k : Nat, (((pick g K).map (reread rt)).map Prod.fst)[k]? =
      ((K[k]?.bind fun i => g.arcs[i]?).map fun a : Arc => { a with score := rt a.score }) := by
    intro k
    rw [← hgk k]
    simp only [List.getElem?_map, Option.map_map]
    cases (pick g K)[k]? <;> rfl
  unfold Addable Loadable
  constructor
  · intro hA k i a hk ha
    have := hA k { a with score := rt a.score } (by rw [hg2, hk, Option.bind_some, ha]; rfl)
    rcases this with h0 | h0 | ⟨j, b, hj, hb, hle⟩
    · exact absurd h0 (by omega)
    · exact Or.inl h0
    · rw [hg2, Option.map_eq_some_iff] at hb
      obtain ⟨b0, hb, rfl⟩ := hb
      obtain ⟨i', hi', hb⟩ := Option.bind_eq_some_iff.1 hb
      exact Or.inr ⟨j, i', b0, hj, hi', hb, hle⟩
  · intro hL k a hk
    rw [hg2, Option.map_eq_some_iff] at hk
    obtain ⟨a0, hk, rfl⟩ := hk
    obtain ⟨i, hi, ha⟩ := Option.bind_eq_some_iff.1 hk
    rcases hL k i a0 hi ha with h0 | ⟨j, i', b, hj, hi', hb, hle⟩
    · exact Or.inr (Or.inl h0)
    · exact Or.inr (Or.inr ⟨j, { b with score := rt b.score }, hj, by rw [hg2, hi', Option.bind_some, hb]; rfl, hle⟩)

/-- **C168 (partial).** Printing a graph always succeeds, and loading the file into any graph gives: the printed arcs in the same order
(none of them pruned) with their states and words, and with the scores and the score components that were written; the weights; and the
final states that some arc not pruned enters. The score of the initial state is 0. Loading is defined exactly if the arcs are loadable.
Missing: the score of the initial state is not written. -/
theorem C168_round_trip_partial (fmt fmtW : Score → Str) (atof : Str → Score) (hf : Fmt fmt) (hfw : ∀ x, Word (fmtW x)) (g : WG) (hw : WF g)
    (hp : Printable g) (only : Bool) (ho : only = true → UsefulOk g) (K : List Nat) (hK : Printed g only K) :
    ∃ file, print fmt fmtW only g = some file ∧
      (¬ Loadable g K → ∀ old, load atof old file = none) ∧
      (Loadable g K → ∃ g', (∀ old, load atof old file = some g') ∧ WF g' ∧
        g'.arcs.map some = K.map (fun i => (g.arcs[i]?).map fun a => { a with score := atof (fmt a.score) }) ∧
        g'.comps.map some = K.map (fun i => (g.comps[i]?).map fun c => c.map fun x => atof (fmt x)) ∧
        g'.pruned = List.replicate K.length false ∧
        g'.weights = g.weights.map (fun p => (p.1, atof (fmtW p.2))) ∧
        (∀ s, s ∈ g'.final ↔ s ∈ g.final ∧ ∃ i a, Live g i a ∧ a.succ = s) ∧
        g'.final.Pairwise (· < ·) ∧
        g'.init = 0 ∧
        (∀ n, g'.states.length ≤ n ↔ ∀ a ∈ g'.arcs, a.succ < n)) := by
  have hKm := printed_lt hK
  obtain ⟨p1, p2, p3⟩ := pick_some hw K hKm
  refine ⟨_, print_eq fmt fmtW hw ho hK, ?_, ?_⟩
  · intro hL old
    rw [load_print fmt fmtW atof hf hfw hp old]
    apply addAll_none _ _ ⟨rfl, rfl, by simp [new], by simp [new], by simp [new], by simp [new]⟩
    intro h
    exact hL ((addable_iff hw hKm _).1 h)
  · intro hL
    obtain ⟨g', k1, k2, k3, k4, k5, k6, k7, k8, k9⟩ := addAll_ok ((pick g K).map (reread fun x => atof (fmt x)))
      { new with weights := g.weights.map fun p => (p.1, atof (fmtW p.2)), final := g.final.filter (entered g) }
      ⟨rfl, rfl, by simp [new], by simp [new], by simp [new], by simp [new]⟩ ((addable_iff hw hKm _).2 hL)
    refine ⟨g', fun old => by rw [load_print fmt fmtW atof hf hfw hp old]; exact k1, k2, ?_, ?_, ?_, k8, ?_, ?_, k7, ?_⟩
    · rw [k3]
      have : (new.arcs ++ ((pick g K).map (reread fun x => atof (fmt x))).map Prod.fst).map some =
          (((pick g K).map Prod.fst).map some).map (Option.map fun a => { a with score := atof (fmt a.score) }) := by
        simp [new, reread, Function.comp_def]
      rw [this, p2]; simp
    · rw [k4]
      have : (new.comps ++ ((pick g K).map (reread fun x => atof (fmt x))).map Prod.snd).map some =
          (((pick g K).map Prod.snd).map some).map (Option.map fun c => c.map fun x => atof (fmt x)) := by
        simp [new, reread, Function.comp_def]
      rw [this, p3]; simp
    · rw [k5, List.length_map, p1]; rfl
    · intro s
      rw [k6]
      show s ∈ g.final.filter (entered g) ↔ _
      rw [List.mem_filter, entered_iff]
    · rw [k6]; exact hp.final.filter _
    · intro n
      rw [k9, k3]
      constructor
      · rintro ⟨_, h⟩ a ha
        obtain ⟨e, he, rfl⟩ := List.mem_map.1 (show a ∈ ((pick g K).map (reread fun x => atof (fmt x))).map Prod.fst from ha)
        exact h e he
      · intro h
        refine ⟨Nat.zero_le _, fun e he => h e.1 ?_⟩
        exact List.mem_append_right _ (List.mem_map_of_mem he)

/-- **C168, full statement:** the loaded graph also has the score of the initial state. -/
def C168_full : Prop :=
  ∀ (fmt fmtW : Score → Str) (atof : Str → Score), Fmt fmt → (∀ x, Word (fmtW x)) → ∀ g, WF g → Printable g →
    ∀ K, Printed g false K → Loadable g K → ∃ file g', print fmt fmtW false g = some file ∧ load atof new file = some g' ∧
      g'.init = g.init

theorem C168_counterexample : ¬ C168_full := by
  intro h
  obtain ⟨file, g', h1, h2, h3⟩ := h (fun _ => ['1']) (fun _ => ['1']) (fun _ => 1) fmt_one
    (fun _ => word_one) { new with init := -1 } ⟨rfl, rfl, by simp [new], by simp [new], by simp [new], by simp [new]⟩
    ⟨by simp [new], by simp [new], by simp [new], by simp [new], by simp [new], by simp [new]⟩ []
    ⟨.nil, by intro i; simp [Live, new]⟩ (by intro k i a hk; simp at hk)
  have e1 : print (fun _ => ['1']) (fun _ => ['1']) false { new with init := -1 } = some ['\n'] := by decide +kernel
  rw [e1] at h1; cases h1
  have e2 : load (fun _ => 1) new ['\n'] = some new := by decide +kernel
  rw [e2] at h2; cases h2
  revert h3; decide

/-! ### Paths -/

/-- What a path says, with the numbers written and read. -/
def relabel (rt : Score → Score) : Score × List Str × Option (List Score) → Score × List Str × Option (List Score) :=
  fun l => (rt l.1, l.2.1, l.2.2.map fun c => c.map rt)

theorem path_mem {P : Nat → Arc → Prop} {s t : Nat} {p : List (Nat × Arc)} (h : Path P s p t) : ∀ e ∈ p, P e.1 e.2 := by
  intro e he
  obtain ⟨_, _, h1, _⟩ := path_split (i := e.1) (a := e.2) h he
  exact h1

theorem path_nil {P : Nat → Arc → Prop} {s t : Nat} (h : Path P s [] t) : s = t := by
  generalize he : ([] : List (Nat × Arc)) = p at h
  cases h with
  | nil => rfl
  | cons => cases he

theorem path_last {P : Nat → Arc → Prop} {s t : Nat} {p : List (Nat × Arc)} (h : Path P s p t) (hne : p ≠ []) :
    ∃ i a, P i a ∧ a.succ = t := by
  induction h with
  | nil s => exact absurd rfl hne
  | @cons j b p t hb hp ih =>
    cases p with
    | nil => exact ⟨j, b, hb, path_nil hp⟩
    | cons e p => exact ih (by simp)

/-- **C169 (partial).** The complete paths of the loaded graph with some arc are those of the printed graph: every one of them has the
words of the other, and the scores and components that were written. Missing: a final initial state that no arc enters is lost, and with
it the empty path. -/
theorem C169_paths_partial (fmt fmtW : Score → Str) (atof : Str → Score) (hf : Fmt fmt) (hfw : ∀ x, Word (fmtW x)) (g : WG) (hw : WF g)
    (hp : Printable g) (only : Bool) (ho : only = true → UsefulOk g) (K : List Nat) (hK : Printed g only K) (hL : Loadable g K) :
    ∃ file g', print fmt fmtW only g = some file ∧ (∀ old, load atof old file = some g') ∧
      (∀ p, p ≠ [] → Complete g (Live g) p → ∃ p', p' ≠ [] ∧ Complete g' (Live g') p' ∧
        labels g' p' = (labels g p).map (relabel fun x => atof (fmt x))) ∧
      (∀ p', p' ≠ [] → Complete g' (Live g') p' → ∃ p, p ≠ [] ∧ Complete g (Live g) p ∧
        labels g' p' = (labels g p).map (relabel fun x => atof (fmt x))) := by
  obtain ⟨file, h1, -, h2⟩ := C168_round_trip_partial fmt fmtW atof hf hfw g hw hp only ho K hK
  obtain ⟨g', h3, -, h4, h5, h6, -, h7, -, -, -⟩ := h2 hL
  refine ⟨file, g', h1, h3, ?_, ?_⟩
  · intro p hne hc
    obtain ⟨f, hff, hpath⟩ := hc
    have hin : ∀ e ∈ p, e.1 ∈ K := by
      intro e he
      rw [hK.mem]
      exact ⟨e.2, path_mem hpath e he, fun _ => ⟨p, ⟨f, hff, hpath⟩, he⟩⟩
    have key : ∀ (s : Nat) (q : List (Nat × Arc)) (t : Nat), Path (Live g) s q t → (∀ e ∈ q, e.1 ∈ K) →
        ∃ q', Path (Live g') s q' t ∧ labels g' q' = (labels g q).map (relabel fun x => atof (fmt x)) := by
      intro s q t hq
      induction hq with
      | nil s => intro _; exact ⟨[], .nil _, rfl⟩
      | @cons i a q t hl hq ih =>
        intro hqK
        obtain ⟨q', hq', hlab⟩ := ih fun e he => hqK e (List.mem_cons_of_mem _ he)
        obtain ⟨k, hk⟩ := List.getElem?_of_mem (hqK (i, a) List.mem_cons_self)
        have ea : g'.arcs[k]? = some { a with score := atof (fmt a.score) } := by
          rw [getElem?_of_map_some h4 k, hk, Option.bind_some, hl.1]; rfl
        have ep : g'.pruned[k]? = some false := by
          rw [h6, List.getElem?_replicate, if_pos (List.getElem?_eq_some_iff.1 hk).1]
        have ec : g'.comps[k]? = (g.comps[i]?).map fun c => c.map fun x => atof (fmt x) := by
          rw [getElem?_of_map_some h5 k, hk, Option.bind_some]
        refine ⟨(k, { a with score := atof (fmt a.score) }) :: q', .cons (a := { a with score := atof (fmt a.score) }) ⟨ea, ep⟩ hq', ?_⟩
        unfold labels at hlab ⊢
        rw [List.map_cons, List.map_cons, List.map_cons, hlab, ec]
        rfl
    obtain ⟨p', hp', hlab⟩ := key _ p f hpath hin
    refine ⟨p', ?_, ⟨f, ?_, hp'⟩, hlab⟩
    · intro hn
      rw [hn] at hlab
      cases p with
      | nil => exact hne rfl
      | cons e p => simp [labels] at hlab
    · rw [h7]; exact ⟨hff, path_last hpath hne⟩
  · intro p' hne hc
    obtain ⟨f, hff, hpath⟩ := hc
    have key : ∀ (s : Nat) (q' : List (Nat × Arc)) (t : Nat), Path (Live g') s q' t →
        ∃ q, Path (Live g) s q t ∧ labels g' q' = (labels g q).map (relabel fun x => atof (fmt x)) := by
      intro s q t hq
      induction hq with
      | nil s => exact ⟨[], .nil _, rfl⟩
      | @cons k b q t hl hq ih =>
        obtain ⟨q', hq', hlab⟩ := ih
        have ea := hl.1
        rw [getElem?_of_map_some h4 k] at ea
        obtain ⟨i, hk, eb⟩ := Option.bind_eq_some_iff.1 ea
        obtain ⟨a, ec0, rfl⟩ := Option.map_eq_some_iff.1 eb
        obtain ⟨a', hla, -⟩ := (hK.mem i).1 (List.mem_of_getElem? hk)
        have : a' = a := by have := hla.1; rw [ec0] at this; cases this; rfl
        subst this
        have ec : g'.comps[k]? = (g.comps[i]?).map fun c => c.map fun x => atof (fmt x) := by
          rw [getElem?_of_map_some h5 k, hk, Option.bind_some]
        refine ⟨(i, a') :: q', .cons hla hq', ?_⟩
        unfold labels at hlab ⊢
        rw [List.map_cons, List.map_cons, List.map_cons, hlab, ec]
        rfl
    obtain ⟨p, hp', hlab⟩ := key _ p' f hpath
    refine ⟨p, ?_, ⟨f, ((h7 f).1 hff).1, hp'⟩, hlab⟩
    intro hn
    rw [hn] at hlab
    cases p' with
    | nil => exact hne rfl
    | cons e p => simp [labels] at hlab

/-- **C169, full statement:** also for the empty path. -/
def C169_full : Prop :=
  ∀ (fmt fmtW : Score → Str) (atof : Str → Score), Fmt fmt → (∀ x, Word (fmtW x)) → ∀ g, WF g → Printable g →
    ∀ K, Printed g false K → Loadable g K → ∃ file g', print fmt fmtW false g = some file ∧ load atof new file = some g' ∧
      ∀ p, Complete g (Live g) p → ∃ p', Complete g' (Live g') p' ∧ labels g' p' = (labels g p).map (relabel fun x => atof (fmt x))

/-- An arc from the initial state to state 1; both states are final. -/
def exBoth : WG := ⟨[⟨0, 1, -1, [['a']]⟩], [false], [⟨[], [0]⟩, ⟨[0], []⟩], [0, 1], 0, [], [[]]⟩

theorem exBoth_wf : WF exBoth := by apply wf_of <;> decide +kernel

theorem exBoth_printable : Printable exBoth := by
  refine ⟨?_, ?_, by decide, by decide, by decide, by decide⟩
  · intro a ha w hw
    simp only [exBoth, List.mem_singleton] at ha; subst ha
    rw [List.mem_singleton] at hw; subst hw
    exact ⟨by decide, by decide⟩
  · intro i a h1 _
    have := List.mem_of_getElem? h1
    simp only [exBoth, List.mem_singleton] at this; subst this; decide

theorem exBoth_printed : Printed exBoth false [0] := by
  refine ⟨by decide, ?_⟩
  intro i
  rw [List.mem_singleton]
  constructor
  · rintro rfl; exact ⟨⟨0, 1, -1, [['a']]⟩, ⟨rfl, rfl⟩, by simp⟩
  · rintro ⟨a, ⟨h1, _⟩, _⟩
    have := (List.getElem?_eq_some_iff.1 h1).1
    simp only [exBoth, List.length_singleton] at this; omega

theorem exBoth_loadable : Loadable exBoth [0] := by
  intro k i a hk ha
  have := List.mem_of_getElem? ha
  simp only [exBoth, List.mem_singleton] at this; subst this
  exact Or.inl (by decide)

theorem C169_counterexample : ¬ C169_full := by
  intro h
  obtain ⟨file, g', h1, h2, h3⟩ := h (fun _ => ['1']) (fun _ => ['1']) (fun _ => 1) fmt_one
    (fun _ => word_one) exBoth exBoth_wf exBoth_printable [0] exBoth_printed exBoth_loadable
  have e1 : print (fun _ => ['1']) (fun _ => ['1']) false exBoth = some "1 \n0 1 1 a\n".toList := by decide +kernel
  rw [e1] at h1; cases h1
  have e2 : load (fun _ => 1) new "1 \n0 1 1 a\n".toList =
      some ⟨[⟨0, 1, 1, [['a']]⟩], [false], [⟨[], [0]⟩, ⟨[0], []⟩], [1], 0, [], [[]]⟩ := by decide +kernel
  rw [e2] at h2; cases h2
  obtain ⟨p', ⟨f, hf, hp⟩, hl⟩ := h3 [] ⟨0, by decide, .nil _⟩
  have : p' = [] := by cases p' with
    | nil => rfl
    | cons e p => simp [labels] at hl
  subst this
  simp only [List.mem_singleton] at hf; subst hf
  exact absurd (path_nil hp) (by decide)

/-- Non-vacuity: the hypotheses hold of a graph with a final state and a printed arc. -/
example : WF exBoth ∧ Printable exBoth ∧ Printed exBoth false [0] ∧ Loadable exBoth [0] :=
  ⟨exBoth_wf, exBoth_printable, exBoth_printed, exBoth_loadable⟩

/-- A graph with weights and components whose first arc is pruned is written and read. -/
def exTwo : WG := ⟨[⟨0, 1, -1, [['a']]⟩, ⟨0, 2, -2, [['b'], ['c']]⟩, ⟨2, 1, 0, []⟩], [true, false, false],
  [⟨[], [0, 1]⟩, ⟨[0, 2], []⟩, ⟨[1], [2]⟩], [1], 0, [(['w'], 1), (['v'], 2)], [[], [-2, 0], [0, 0]]⟩

example : print (fun x => if x = 0 then ['0'] else ['-', '2']) (fun _ => ['1']) false exTwo =
    some "# w 1 , v 1\n1 \n0 2 -2 ||| -2 0 ||| b c\n2 1 0 ||| 0 0 ||| \n".toList := by decide +kernel

example : load (fun s => if s = ['1'] then 1 else if s = ['0'] then 0 else -2) exBoth "# w 1 , v 1\n1 \n0 2 -2 ||| -2 0 ||| b c\n2 1 0 ||| 0 0 ||| \n".toList =
    some ⟨[⟨0, 2, -2, [['b'], ['c']]⟩, ⟨2, 1, 0, []⟩], [false, false], [⟨[], [0]⟩, ⟨[1], []⟩, ⟨[0], [1]⟩], [1], 0,
      [(['w'], 1), (['v'], 1)], [[-2, 0], [0, 0]]⟩ := by decide +kernel

end Thot.WordGraph
