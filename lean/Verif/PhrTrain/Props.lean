import Verif.PhrTrain.Lemmas
import Verif.Srf.Props
/-! C159 (training), C160 (filters). -/
namespace Thot.PhrTrain
open AMap Thot.Vocab Thot.LevelDb

/-! ### C160: the filters -/

theorem lk_collect (ws : SPhrase) : ∀ (m : List (Str × Nat)) (c : Str), c ∈ categs →
    (lk (collect ws m) c).getD 0 = (lk m c).getD 0 + ws.count c := by
  induction ws with
  | nil => intro m c _; simp [collect]
  | cons w ws ih =>
    intro m c hc
    rw [collect, ih _ c hc, List.count_cons]
    by_cases hw : w = c
    · subst hw
      rw [if_pos (by simpa using hc), lk_put_self]; simp; omega
    · have hw' : (w == c) = false := by simpa using hw
      have hw2 : ¬ c = w := fun h => hw h.symm
      split
      · rw [lk_put, if_neg hw2]; simp [hw']
      · simp [hw']

theorem fst_put_present {m : List (Str × Nat)} {w : Str} (n : Nat) (h : w ∈ m.map Prod.fst) :
    (put m w n).map Prod.fst = m.map Prod.fst := by
  induction m with
  | nil => cases h
  | cons e m ih =>
    rw [put]
    split
    · next he => simp [he]
    · next he =>
      simp only [List.map_cons, List.mem_cons] at h ⊢
      rw [ih (h.resolve_left (fun hc => he hc.symm))]

theorem fst_collect (ws : SPhrase) : ∀ (m : List (Str × Nat)), m.map Prod.fst = categs → (collect ws m).map Prod.fst = categs := by
  induction ws with
  | nil => intro m h; exact h
  | cons w ws ih =>
    intro m h
    rw [collect]
    refine ih _ ?_
    split
    · next hw => rw [fst_put_present _ (by rw [h]; simpa using hw), h]
    · exact h

theorem categs_nodup : categs.Nodup := by decide

theorem mem_collect (ws : SPhrase) (c : Str) (n : Nat) : (c, n) ∈ collect ws initMap ↔ c ∈ categs ∧ n = ws.count c := by
  have h1 : (collect ws initMap).map Prod.fst = categs := fst_collect ws _ (by decide)
  have hd : Distinct (collect ws initMap) := by unfold Distinct; rw [h1]; exact categs_nodup
  have h0 : ∀ c ∈ categs, (lk initMap c).getD 0 = 0 := by decide
  constructor
  · intro h
    have hc : c ∈ categs := by rw [← h1]; exact List.mem_map.2 ⟨_, h, rfl⟩
    refine ⟨hc, ?_⟩
    have h2 := lk_collect ws initMap c hc
    rw [(lk_some_iff hd).2 h, h0 c hc] at h2
    simpa using h2
  · rintro ⟨hc, rfl⟩
    rw [← h1] at hc
    obtain ⟨e, he, rfl⟩ := List.mem_map.1 hc
    have h2 := lk_collect ws initMap e.1 (by rw [← h1]; exact hc)
    rw [(lk_some_iff hd).2 (show (e.1, e.2) ∈ _ from he), h0 _ (by rw [← h1]; exact hc)] at h2
    have h3 : e.2 = ws.count e.1 := by simpa using h2
    rw [← h3]; exact he

/-- **C160 (filter used in training).** A phrase pair is accepted exactly when each of the three category tags occurs the
same number of times in both phrases. -/
theorem C160_categ (s t : SPhrase) : categOk s t = true ↔
    s.count "<digit>".toList = t.count "<digit>".toList ∧ s.count "<number>".toList = t.count "<number>".toList ∧
    s.count "<alfanum>".toList = t.count "<alfanum>".toList := by
  have hd : ∀ ws, Distinct (collect ws initMap) := by
    intro ws; unfold Distinct; rw [fst_collect ws _ (by decide)]; exact categs_nodup
  have h : categOk s t = true ↔ ∀ c ∈ categs, s.count c = t.count c := by
    unfold categOk
    rw [List.all_eq_true]
    constructor
    · intro h c hc
      have := h _ ((mem_collect s c _).2 ⟨hc, rfl⟩)
      rw [(lk_some_iff (hd t)).2 ((mem_collect t c _).2 ⟨hc, rfl⟩)] at this
      simpa using this
    · intro h e he
      obtain ⟨hc, hn⟩ := (mem_collect s e.1 e.2).1 he
      rw [(lk_some_iff (hd t)).2 ((mem_collect t e.1 _).2 ⟨hc, rfl⟩)]
      simp [hn, h _ hc]
  rw [h]
  simp only [categs, List.mem_cons, List.not_mem_nil, or_false, forall_eq_or_imp, forall_eq]

/-- **C160 (strict filter).** A phrase pair is accepted exactly when no category tag occurs in it or both phrases are the
same; then the filter used in training accepts it too. -/
theorem C160_strict (s t : SPhrase) :
    (strictOk s t = true ↔ s = t ∨ ∀ w, w ∈ s ∨ w ∈ t → w ≠ "<digit>".toList ∧ w ≠ "<number>".toList ∧ w ≠ "<alfanum>".toList) ∧
    (strictOk s t = true → categOk s t = true) := by
  have h : strictOk s t = true ↔ s = t ∨ ∀ w, w ∈ s ∨ w ∈ t → w ≠ "<digit>".toList ∧ w ≠ "<number>".toList ∧ w ≠ "<alfanum>".toList := by
    unfold strictOk
    split
    · next hc =>
      rw [decide_eq_true_eq]
      refine ⟨.inl, ?_⟩
      rintro (h | h)
      · exact h
      · exfalso
        have hn : ∀ w, w ∈ s ∨ w ∈ t → ¬ categs.contains w = true := by
          intro w hw
          obtain ⟨h1, h2, h3⟩ := h w hw
          simp only [categs, List.contains_eq_mem, List.mem_cons, List.not_mem_nil, or_false, decide_eq_true_eq]
          rintro (h | h | h)
          · exact h1 h
          · exact h2 h
          · exact h3 h
        rw [Bool.or_eq_true, List.any_eq_true, List.any_eq_true] at hc
        rcases hc with ⟨w, hw, h'⟩ | ⟨w, hw, h'⟩
        · exact hn w (.inl hw) h'
        · exact hn w (.inr hw) h'
    · next hc =>
      simp only [true_iff]
      right
      intro w hw
      rw [Bool.or_eq_true, List.any_eq_true, List.any_eq_true] at hc
      have hn : ¬ categs.contains w = true := fun h' => hc (hw.elim (fun hw => .inl ⟨w, hw, h'⟩) (fun hw => .inr ⟨w, hw, h'⟩))
      simp only [categs, List.contains_eq_mem, List.mem_cons, List.not_mem_nil, or_false, decide_eq_true_eq] at hn
      exact ⟨fun h => hn (.inl h), fun h => hn (.inr (.inl h)), fun h => hn (.inr (.inr h))⟩
  refine ⟨h, fun hs => ?_⟩
  rw [C160_categ]
  rcases h.1 hs with rfl | h
  · exact ⟨rfl, rfl, rfl⟩
  · refine ⟨?_, ?_, ?_⟩ <;>
    · rw [List.count_eq_zero_of_not_mem, List.count_eq_zero_of_not_mem]
      · intro hm; have := h _ (.inr hm); simp at this
      · intro hm; have := h _ (.inl hm); simp at this

example : categOk ["<number>".toList, "a".toList] ["b".toList, "<number>".toList] = true := by decide
example : strictOk ["<number>".toList, "a".toList] ["b".toList, "<number>".toList] = false := by decide
example : categOk ["<number>".toList, "a".toList] ["b".toList, "<digit>".toList] = false := by decide

/-! ### C159: training -/

/-- Counts by strings after any history of calls. -/
theorem C159_strings (os : List SOp) (hu : ∀ o ∈ os, Clean o.src ∧ Clean o.trg ∧ o.trg ≠ [])
    (n1 : size (srun clear os).sv ≤ 254 ^ 3) (n2 : size (srun clear os).tv ≤ 254 ^ 3) (p q : SPhrase) (hp : Clean p) (hq : Clean q)
    (hn : q ≠ []) :
    cHSrc (srun clear os) p = ((sref os).s p).getD 0 ∧ cHTrg (srun clear os) q = ((sref os).t q).getD 0 ∧
    cHSrcHTrg (srun clear os) p q = ((sref os).st p q).getD 0 :=
  counts (by simpa using rel_run rel_clear os) hu n1 n2 p q hp hq hn

/-- The phrase pairs that a sentence pair contributes: those of C155 in segmentation-based estimation; otherwise those of
C74-C76 whose sides have the same numbers of category tags. -/
def Extracted (x : Item) (l : List PhrExtract.Phrase) : Prop :=
  if x.brf then ∃ n, Srf.segmBased x.pars x.ns x.t x.alig = some (n, l)
  else ∃ l0, PhrExtract.extract x.pars x.ns x.t x.alig = some l0 ∧
    l = l0.filter fun p => decide (p.s.count "<digit>" = p.t.count "<digit>" ∧ p.s.count "<number>" = p.t.count "<number>" ∧
      p.s.count "<alfanum>" = p.t.count "<alfanum>")

/-- The sum of repetitions times weight over the selected phrase pairs of one sentence pair. -/
def sumOf (sel : List String → List String → Bool) (r : Rat) : List PhrExtract.Phrase → Rat
  | [] => 0
  | p :: ps => (if sel p.s p.t then r * ((p.num : Rat) / p.den) else 0) + sumOf sel r ps

/-- The sum over a corpus. -/
def sumAll (sel : List String → List String → Bool) : List (Item × List PhrExtract.Phrase) → Rat
  | [] => 0
  | x :: xs => sumOf sel x.1.reps x.2 + sumAll sel xs

/-- The sentence pairs considered: the source sentence has a word beside the null word, the alignment matrix has the sizes
of the sentences and no word is the reserved word `<UNUSED_WORD>`. -/
def ItemOk (x : Item) : Prop :=
  2 ≤ x.ns.length ∧ x.alig.I = x.ns.length - 1 ∧ x.alig.J = x.t.length ∧ "<UNUSED_WORD>" ∉ x.ns ∧ "<UNUSED_WORD>" ∉ x.t

theorem strs_inj {a b : List String} : strs a = strs b ↔ a = b := by
  unfold strs
  refine ⟨fun h => ?_, fun h => by rw [h]⟩
  induction a generalizing b with
  | nil => cases b with
    | nil => rfl
    | cons _ _ => cases h
  | cons x a ih => cases b with
    | nil => cases h
    | cons y b =>
      simp only [List.map_cons, List.cons.injEq] at h
      rw [ih h.2, String.toList_inj.1 h.1]

theorem clean_strs {a : List String} : Clean (strs a) ↔ "<UNUSED_WORD>" ∉ a := by
  unfold Clean strs
  rw [List.mem_map]
  have e : UNUSED_WORD_STR = "<UNUSED_WORD>".toList := by decide
  rw [e]
  constructor
  · intro h hm; exact h ⟨_, hm, rfl⟩
  · rintro h ⟨w, hw, he⟩
    rw [String.toList_inj.1 he] at hw; exact h hw

theorem count_strs (a : List String) (c : String) : (strs a).count c.toList = a.count c := by
  induction a with
  | nil => rfl
  | cons x a ih =>
    simp only [strs, List.map_cons, List.count_cons] at ih ⊢
    rw [ih]
    congr 1
    by_cases h : x = c
    · simp [h]
    · have h2 : ¬ x.toList = c.toList := fun hc => h (String.toList_inj.1 hc)
      have e1 : (x.toList == c.toList) = false := by simpa using h2
      have e2 : (x == c) = false := by simpa using h
      rw [e1, e2]

/-- The calls made for the phrase pairs of a sentence pair. -/
def opsOf (r : Rat) (ps : List PhrExtract.Phrase) : List SOp := ps.map fun p => .incr (strs p.s) (strs p.t) (r * weight p)

theorem store_eq (r : Rat) (ps : List PhrExtract.Phrase) (st : St) : storePhrasePairs r ps st = srun st (opsOf r ps) := by
  induction ps generalizing st with
  | nil => rfl
  | cons p ps ih => rw [storePhrasePairs, ih]; rfl

/-- A phrase of words of the sentences. -/
def PhrOk (p : PhrExtract.Phrase) : Prop := "<UNUSED_WORD>" ∉ p.s ∧ "<UNUSED_WORD>" ∉ p.t ∧ p.t ≠ []

theorem not_mem_part {α : Type} {w : α} {l : List α} (h : w ∉ l) (a b : Nat) : w ∉ (l.drop a).take b := fun hc =>
  h (List.mem_of_mem_drop (List.mem_of_mem_take hc))

theorem part_ne_nil {α : Type} {l : List α} {a b : Nat} (h1 : a < l.length) (h2 : 0 < b) : (l.drop a).take b ≠ [] := by
  intro hc
  have := congrArg List.length hc
  simp only [List.length_take, List.length_drop, List.length_nil] at this
  omega

theorem extend_one (st : St) (x : Item) (hx : ItemOk x) : ∃ l, Extracted x l ∧ (∀ p ∈ l, PhrOk p) ∧
    extendModelFromPairPlusAlig st x = some (srun st (opsOf x.reps l)) := by
  obtain ⟨h2, hI, hJ, hu1, hu2⟩ := hx
  have hne : x.ns ≠ [] := by intro hc; rw [hc] at h2; simp at h2
  by_cases hlen : x.t.length < PhrExtract.maxSentLen ∧ x.ns ≠ [] ∧ x.ns.length - 1 < PhrExtract.maxSentLen
  · unfold extendModelFromPairPlusAlig
    rw [if_pos hlen]
    simp only [PhrExtract.maxSentLen] at hlen
    cases hb : x.brf with
    | false =>
      obtain ⟨L, _, h3, h4⟩ := PhrExtract.C74_extraction_sound_partial x.pars x.ns x.t x.alig h2 hI hJ
      rw [if_pos rfl, h3, Option.map_some]
      refine ⟨_, ?_, ?_, by rw [store_eq]⟩
      · unfold Extracted
        rw [hb, if_neg (by simp)]
        refine ⟨_, h3, ?_⟩
        apply List.filter_congr
        intro p _
        rw [Bool.eq_iff_iff, C160_categ, decide_eq_true_eq, count_strs, count_strs, count_strs, count_strs, count_strs, count_strs]
      · intro p hp
        obtain ⟨s, hs, rfl⟩ := List.mem_map.1 (List.mem_filter.1 hp).1
        obtain ⟨⟨c1, c2, c3, c4, c5, c6, _⟩, _⟩ := h4 s hs
        exact ⟨not_mem_part hu1 _ _, not_mem_part hu2 _ _, part_ne_nil (by omega) (by omega)⟩
    | true =>
      obtain ⟨L, _, _, h4, _, B, _, hB, M, _, hM, h5, _⟩ := Srf.C155_segmentation_weights_partial x.pars x.ns x.t x.alig h2
        (by omega) (by omega) hI hJ
      rw [if_neg (by simp), h5, Option.map_some]
      refine ⟨_, ?_, ?_, by rw [store_eq]⟩
      · unfold Extracted
        rw [hb, if_pos rfl]
        exact ⟨_, h5⟩
      · intro p hp
        obtain ⟨s, hs, rfl⟩ := List.mem_map.1 hp
        obtain ⟨σ, hσ, hmem⟩ := (hM s).1 hs
        obtain ⟨⟨c1, c2, c3, c4, c5, c6, _⟩, _⟩ := h4 s (((hB σ).1 hσ).1 s hmem)
        exact ⟨not_mem_part hu1 _ _, not_mem_part hu2 _ _, part_ne_nil (by omega) (by omega)⟩
  · refine ⟨[], ?_, by simp, ?_⟩
    · have hlen' : x.t.length ≥ PhrExtract.maxSentLen ∨ x.ns = [] ∨ x.ns.length - 1 ≥ PhrExtract.maxSentLen := by
        simp only [PhrExtract.maxSentLen] at hlen ⊢
        simp only [hne, not_false_eq_true, ne_eq, true_and, false_or] at hlen ⊢
        omega
      unfold Extracted
      cases hb : x.brf with
      | false =>
        rw [if_neg (by simp)]
        refine ⟨[], ?_, rfl⟩
        unfold PhrExtract.extract
        rw [if_pos hlen']
      | true =>
        rw [if_pos rfl]
        refine ⟨1, ?_⟩
        unfold Srf.segmBased
        rw [if_pos hlen']
    · unfold extendModelFromPairPlusAlig
      rw [if_neg hlen]; rfl

/-- The calls made for a corpus. -/
def allOps (xls : List (Item × List PhrExtract.Phrase)) : List SOp := xls.flatMap fun xl => opsOf xl.1.reps xl.2

theorem extend_all (xs : List Item) (hx : ∀ x ∈ xs, ItemOk x) (st : St) : ∃ xls : List (Item × List PhrExtract.Phrase),
    xls.map Prod.fst = xs ∧ (∀ xl ∈ xls, Extracted xl.1 xl.2 ∧ ∀ p ∈ xl.2, PhrOk p) ∧
    extendModel st xs = some (srun st (allOps xls)) := by
  induction xs generalizing st with
  | nil => exact ⟨[], rfl, by simp, rfl⟩
  | cons x xs ih =>
    obtain ⟨l, h1, h2, h3⟩ := extend_one st x (hx x List.mem_cons_self)
    obtain ⟨xls, g1, g2, g3⟩ := ih (fun y hy => hx y (List.mem_cons_of_mem _ hy)) (srun st (opsOf x.reps l))
    refine ⟨(x, l) :: xls, by simp [g1], ?_, ?_⟩
    · intro xl hxl
      rcases List.mem_cons.1 hxl with rfl | hxl
      · exact ⟨h1, h2⟩
      · exact g2 xl hxl
    · rw [extendModel, h3]
      simp only
      rw [g3]
      simp only [allOps, List.flatMap_cons, srun, List.foldl_append]

/-- References of increments. -/
theorem sref_incr (r : Rat) (ps : List PhrExtract.Phrase) (f : SRef) (hs ht : List String) :
    (((opsOf r ps).foldl SRef.step f).s (strs hs)).getD 0 = (f.s (strs hs)).getD 0 + sumOf (fun a _ => a = hs) r ps ∧
    (((opsOf r ps).foldl SRef.step f).t (strs ht)).getD 0 = (f.t (strs ht)).getD 0 + sumOf (fun _ b => b = ht) r ps ∧
    (((opsOf r ps).foldl SRef.step f).st (strs hs) (strs ht)).getD 0 =
      (f.st (strs hs) (strs ht)).getD 0 + sumOf (fun a b => a = hs ∧ b = ht) r ps := by
  induction ps generalizing f with
  | nil => simp [opsOf, sumOf, Rat.add_zero]
  | cons p ps ih =>
    have hc : opsOf r (p :: ps) = .incr (strs p.s) (strs p.t) (r * weight p) :: opsOf r ps := rfl
    rw [hc, List.foldl_cons]
    obtain ⟨h1, h2, h3⟩ := ih (SRef.step f (.incr (strs p.s) (strs p.t) (r * weight p)))
    rw [h1, h2, h3]
    simp only [SRef.step, sumOf, strs_inj, weight]
    refine ⟨?_, ?_, ?_⟩
    · by_cases he : hs = p.s
      · subst he; simp; grind
      · have he' : ¬ p.s = hs := fun hc => he hc.symm
        simp [he, he']; grind
    · by_cases he : ht = p.t
      · subst he; simp; grind
      · have he' : ¬ p.t = ht := fun hc => he hc.symm
        simp [he, he']; grind
    · by_cases he : hs = p.s ∧ ht = p.t
      · obtain ⟨rfl, rfl⟩ := he; simp; grind
      · have he' : ¬ (p.s = hs ∧ p.t = ht) := fun hc => he ⟨hc.1.symm, hc.2.symm⟩
        simp [he, he']; grind

theorem sref_all (xls : List (Item × List PhrExtract.Phrase)) (f : SRef) (hs ht : List String) :
    (((allOps xls).foldl SRef.step f).s (strs hs)).getD 0 = (f.s (strs hs)).getD 0 + sumAll (fun a _ => a = hs) xls ∧
    (((allOps xls).foldl SRef.step f).t (strs ht)).getD 0 = (f.t (strs ht)).getD 0 + sumAll (fun _ b => b = ht) xls ∧
    (((allOps xls).foldl SRef.step f).st (strs hs) (strs ht)).getD 0 =
      (f.st (strs hs) (strs ht)).getD 0 + sumAll (fun a b => a = hs ∧ b = ht) xls := by
  induction xls generalizing f with
  | nil => simp [allOps, sumAll, Rat.add_zero]
  | cons x xs ih =>
    have e : allOps (x :: xs) = opsOf x.1.reps x.2 ++ allOps xs := rfl
    rw [e, List.foldl_append]
    obtain ⟨h1, h2, h3⟩ := ih ((opsOf x.1.reps x.2).foldl SRef.step f)
    obtain ⟨g1, g2, g3⟩ := sref_incr x.1.reps x.2 f hs ht
    rw [h1, h2, h3, g1, g2, g3]
    simp only [sumAll]
    refine ⟨?_, ?_, ?_⟩ <;> grind

/-- **C159.** Training on any corpus (any sequence of word-aligned sentence pairs, each with its own parameters, estimation
mode and number of repetitions) is defined, and afterwards the count of every pair of phrases, of every source phrase and of every
target phrase, asked by words, is the sum over the sentence pairs of the number of repetitions times the weights of the
phrase pairs extracted from it that have these words. The vocabularies must have at most 254^3 words. -/
theorem C159_training (xs : List Item) (hx : ∀ x ∈ xs, ItemOk x) : ∃ st xls,
    generate xs = some st ∧ xls.map Prod.fst = xs ∧ (∀ xl ∈ xls, Extracted xl.1 xl.2) ∧
    (size st.sv ≤ 254 ^ 3 → size st.tv ≤ 254 ^ 3 → ∀ hs ht : List String, "<UNUSED_WORD>" ∉ hs → "<UNUSED_WORD>" ∉ ht → ht ≠ [] →
      cHSrcHTrg st (strs hs) (strs ht) = sumAll (fun a b => decide (a = hs ∧ b = ht)) xls ∧
      cHSrc st (strs hs) = sumAll (fun a _ => decide (a = hs)) xls ∧
      cHTrg st (strs ht) = sumAll (fun _ b => decide (b = ht)) xls) := by
  obtain ⟨xls, h1, h2, h3⟩ := extend_all xs hx clear
  refine ⟨_, xls, h3, h1, fun xl hxl => (h2 xl hxl).1, ?_⟩
  intro n1 n2 hs ht u1 u2 hne
  have hu : ∀ o ∈ allOps xls, Clean o.src ∧ Clean o.trg ∧ o.trg ≠ [] := by
    intro o ho
    obtain ⟨xl, hxl, ho⟩ := List.mem_flatMap.1 ho
    obtain ⟨p, hp, rfl⟩ := List.mem_map.1 ho
    obtain ⟨p1, p2, p3⟩ := (h2 xl hxl).2 p hp
    exact ⟨clean_strs.2 p1, clean_strs.2 p2, fun hc => p3 (List.map_eq_nil_iff.1 hc)⟩
  obtain ⟨c1, c2, c3⟩ := C159_strings (allOps xls) hu n1 n2 (strs hs) (strs ht) (clean_strs.2 u1) (clean_strs.2 u2)
    (fun hc => hne (List.map_eq_nil_iff.1 hc))
  obtain ⟨g1, g2, g3⟩ := sref_all xls SRef.empty hs ht
  rw [c1, c2, c3]
  refine ⟨g3.trans (Rat.zero_add _), g1.trans (Rat.zero_add _), g2.trans (Rat.zero_add _)⟩

theorem extracted_unique {x : Item} {l l' : List PhrExtract.Phrase} (h : Extracted x l) (h' : Extracted x l') : l = l' := by
  unfold Extracted at h h'
  split at h
  · obtain ⟨n, h⟩ := h
    rw [if_pos (by assumption)] at h'
    obtain ⟨n', h'⟩ := h'
    rw [h] at h'; injection h' with h'; injection h' with _ h'
  · obtain ⟨n, h, rfl⟩ := h
    rw [if_neg (by assumption)] at h'
    obtain ⟨n', h', rfl⟩ := h'
    rw [h] at h'; injection h' with h'; rw [h']

theorem sumAll_perm (sel : List String → List String → Bool) {a b : List (Item × List PhrExtract.Phrase)} (h : a.Perm b) :
    sumAll sel a = sumAll sel b := by
  induction h with
  | nil => rfl
  | cons x _ ih => simp only [sumAll, ih]
  | swap x y l => simp only [sumAll]; grind
  | trans _ _ ih1 ih2 => rw [ih1, ih2]

theorem zip_unique (xs : List Item) (a b : List (Item × List PhrExtract.Phrase)) (ha : a.map Prod.fst = xs) (hb : b.map Prod.fst = xs)
    (ea : ∀ xl ∈ a, Extracted xl.1 xl.2) (eb : ∀ xl ∈ b, Extracted xl.1 xl.2) : a = b := by
  induction xs generalizing a b with
  | nil =>
    rw [List.map_eq_nil_iff.1 ha, List.map_eq_nil_iff.1 hb]
  | cons x xs ih =>
    cases a with
    | nil => cases ha
    | cons p a =>
      cases b with
      | nil => cases hb
      | cons q b =>
        simp only [List.map_cons, List.cons.injEq] at ha hb
        obtain ⟨p1, p2⟩ := p
        obtain ⟨q1, q2⟩ := q
        obtain ⟨a1, a2⟩ := ha
        obtain ⟨b1, b2⟩ := hb
        dsimp only at a1 b1
        have hx : q1 = p1 := b1.trans a1.symm
        have h1 := ea _ List.mem_cons_self
        have h2 := eb _ List.mem_cons_self
        rw [hx] at h2 ⊢
        rw [show p2 = q2 from extracted_unique h1 h2, ih a b a2 b2 (fun y hy => ea y (List.mem_cons_of_mem _ hy))
          (fun y hy => eb y (List.mem_cons_of_mem _ hy))]

theorem perm_lift {α β : Type} {a : List (α × β)} {ys : List α} (h : (a.map Prod.fst).Perm ys) :
    ∃ b : List (α × β), b.map Prod.fst = ys ∧ a.Perm b := by
  generalize hxs : a.map Prod.fst = xs at h
  induction h generalizing a with
  | nil => exact ⟨a, hxs, .refl _⟩
  | cons x _ ih =>
    cases a with
    | nil => cases hxs
    | cons p a =>
      simp only [List.map_cons, List.cons.injEq] at hxs
      obtain ⟨b, h1, h2⟩ := ih hxs.2
      exact ⟨p :: b, by simp [h1, hxs.1], h2.cons p⟩
  | swap x y l =>
    match a, hxs with
    | p :: q :: a, hxs =>
      simp only [List.map_cons, List.cons.injEq] at hxs
      exact ⟨q :: p :: a, by simp [hxs], .swap _ _ _⟩
  | trans _ _ ih1 ih2 =>
    obtain ⟨b, h1, h2⟩ := ih1 hxs
    obtain ⟨c, h3, h4⟩ := ih2 h1
    exact ⟨c, h3, h2.trans h4⟩

/-- **C159 (order).** The order of the sentence pairs does not matter: training on a reordering of the corpus gives the same
counts. -/
theorem C159_order (xs ys : List Item) (hp : xs.Perm ys) (hx : ∀ x ∈ xs, ItemOk x) : ∃ st st',
    generate xs = some st ∧ generate ys = some st' ∧
    (size st.sv ≤ 254 ^ 3 → size st.tv ≤ 254 ^ 3 → size st'.sv ≤ 254 ^ 3 → size st'.tv ≤ 254 ^ 3 →
      ∀ hs ht : List String, "<UNUSED_WORD>" ∉ hs → "<UNUSED_WORD>" ∉ ht → ht ≠ [] →
      cHSrcHTrg st (strs hs) (strs ht) = cHSrcHTrg st' (strs hs) (strs ht) ∧ cHSrc st (strs hs) = cHSrc st' (strs hs) ∧
      cHTrg st (strs ht) = cHTrg st' (strs ht)) := by
  obtain ⟨st, xls, h1, h2, h3, h4⟩ := C159_training xs hx
  obtain ⟨st', yls, g1, g2, g3, g4⟩ := C159_training ys (fun y hy => hx y (hp.symm.subset hy))
  refine ⟨st, st', h1, g1, ?_⟩
  intro n1 n2 n3 n4 hs ht u1 u2 hne
  obtain ⟨b, hb, hpb⟩ := perm_lift (h2 ▸ hp)
  have : b = yls := zip_unique ys b yls hb g2 (fun xl hxl => h3 xl (hpb.symm.subset hxl)) g3
  subst this
  obtain ⟨a1, a2, a3⟩ := h4 n1 n2 hs ht u1 u2 hne
  obtain ⟨b1, b2, b3⟩ := g4 n3 n4 hs ht u1 u2 hne
  rw [a1, a2, a3, b1, b2, b3, sumAll_perm _ hpb, sumAll_perm _ hpb, sumAll_perm _ hpb]
  exact ⟨rfl, rfl, rfl⟩

/-! Marginals -/

/-- The sum of a list. -/
def rsum (l : List Rat) : Rat := l.foldr (· + ·) 0

theorem rsum_zero {α : Type} (ss : List α) : rsum (ss.map fun _ => (0 : Rat)) = 0 := by
  induction ss with
  | nil => rfl
  | cons _ _ ih => simp only [rsum, List.map_cons, List.foldr_cons] at ih ⊢; rw [ih]; exact Rat.zero_add _

theorem rsum_add {α : Type} (ss : List α) (f g : α → Rat) : rsum (ss.map fun h => f h + g h) = rsum (ss.map f) + rsum (ss.map g) := by
  induction ss with
  | nil => exact (Rat.zero_add _).symm
  | cons _ _ ih => simp only [rsum, List.map_cons, List.foldr_cons] at ih ⊢; rw [ih]; grind

theorem rsum_single {α : Type} [DecidableEq α] (ss : List α) (a : α) (c : Rat) (hn : ss.Nodup) (ha : a ∈ ss) :
    rsum (ss.map fun h => if a = h then c else 0) = c := by
  induction ss with
  | nil => cases ha
  | cons b ss ih =>
    obtain ⟨h1, h2⟩ := List.nodup_cons.1 hn
    have e : ∀ l : List Rat, ∀ x, rsum (x :: l) = x + rsum l := fun _ _ => rfl
    rw [List.map_cons, e]
    by_cases hb : a = b
    · subst hb
      have : (ss.map fun h => if a = h then c else 0) = ss.map fun _ => (0 : Rat) :=
        List.map_congr_left fun h hh => if_neg (fun hc : a = h => h1 (by rw [hc]; exact hh))
      rw [if_pos rfl, this, rsum_zero]; exact Rat.add_zero _
    · rw [if_neg hb, ih h2 ((List.mem_cons.1 ha).resolve_left hb)]; exact Rat.zero_add _

/-- Splitting the pairs selected by `sel` by the value of `f`. -/
theorem sumAll_split (sel : List String → List String → Bool) (f : List String → List String → List String)
    (xls : List (Item × List PhrExtract.Phrase)) (ss : List (List String)) (hn : ss.Nodup)
    (hss : ∀ xl ∈ xls, ∀ p ∈ xl.2, sel p.s p.t = true → f p.s p.t ∈ ss) :
    sumAll sel xls = rsum (ss.map fun h => sumAll (fun a b => sel a b && decide (f a b = h)) xls) := by
  have one : ∀ (r : Rat) (ps : List PhrExtract.Phrase), (∀ p ∈ ps, sel p.s p.t = true → f p.s p.t ∈ ss) →
      sumOf sel r ps = rsum (ss.map fun h => sumOf (fun a b => sel a b && decide (f a b = h)) r ps) := by
    intro r ps h
    induction ps with
    | nil => simp only [sumOf]; exact (rsum_zero ss).symm
    | cons p ps ih =>
      simp only [sumOf]
      rw [rsum_add, ← ih (fun q hq => h q (List.mem_cons_of_mem _ hq))]
      congr 1
      by_cases hs : sel p.s p.t = true
      · simp only [hs, Bool.true_and, decide_eq_true_eq, if_true]
        rw [rsum_single ss _ _ hn (h p List.mem_cons_self hs)]
      · simp only [hs, Bool.and_eq_true, false_and, if_false]
        exact (rsum_zero ss).symm
  induction xls with
  | nil => simp only [sumAll]; exact (rsum_zero ss).symm
  | cons x xs ih =>
    simp only [sumAll]
    rw [rsum_add, ← ih (fun xl hxl => hss xl (List.mem_cons_of_mem _ hxl)), one _ _ (hss x List.mem_cons_self)]

theorem sumAll_none (sel : List String → List String → Bool) (xls : List (Item × List PhrExtract.Phrase))
    (h : ∀ xl ∈ xls, ∀ p ∈ xl.2, sel p.s p.t = false) : sumAll sel xls = 0 := by
  have one : ∀ (r : Rat) (ps : List PhrExtract.Phrase), (∀ p ∈ ps, sel p.s p.t = false) → sumOf sel r ps = 0 := by
    intro r ps h
    induction ps with
    | nil => rfl
    | cons p ps ih =>
      rw [sumOf, h p List.mem_cons_self, ih (fun q hq => h q (List.mem_cons_of_mem _ hq))]; exact Rat.zero_add _
  induction xls with
  | nil => rfl
  | cons x xs ih =>
    rw [sumAll, one _ _ (h x List.mem_cons_self), ih (fun y hy => h y (List.mem_cons_of_mem _ hy))]; exact Rat.zero_add _

theorem extracted_ok {x : Item} (hx : ItemOk x) {l : List PhrExtract.Phrase} (h : Extracted x l) : ∀ p ∈ l, PhrOk p := by
  obtain ⟨l', h1, h2, _⟩ := extend_one clear x hx
  rw [extracted_unique h h1]; exact h2

/-- **C159 (marginals).** In a trained model the count of a target phrase is the sum of the counts of its pairs over finitely
many source phrases, all the other source phrases having count 0 with it; and the same with source and target exchanged. -/
theorem C159_marginals (xs : List Item) (hx : ∀ x ∈ xs, ItemOk x) : ∃ st, generate xs = some st ∧
    (size st.sv ≤ 254 ^ 3 → size st.tv ≤ 254 ^ 3 →
      (∀ ht : List String, "<UNUSED_WORD>" ∉ ht → ht ≠ [] → ∃ ss : List (List String), ss.Nodup ∧
        cHTrg st (strs ht) = rsum (ss.map fun hs => cHSrcHTrg st (strs hs) (strs ht)) ∧
        ∀ hs, "<UNUSED_WORD>" ∉ hs → hs ∉ ss → cHSrcHTrg st (strs hs) (strs ht) = 0) ∧
      (∀ hs : List String, "<UNUSED_WORD>" ∉ hs → ∃ ts : List (List String), ts.Nodup ∧
        cHSrc st (strs hs) = rsum (ts.map fun ht => cHSrcHTrg st (strs hs) (strs ht)) ∧
        ∀ ht, "<UNUSED_WORD>" ∉ ht → ht ≠ [] → ht ∉ ts → cHSrcHTrg st (strs hs) (strs ht) = 0)) := by
  obtain ⟨st, xls, h1, h2, h3, h4⟩ := C159_training xs hx
  refine ⟨st, h1, fun n1 n2 => ?_⟩
  have ok : ∀ xl ∈ xls, ∀ p ∈ xl.2, PhrOk p := by
    intro xl hxl
    exact extracted_ok (hx _ (by rw [← h2]; exact List.mem_map.2 ⟨xl, hxl, rfl⟩)) (h3 xl hxl)
  have nd : ∀ l : List (List String), ∃ l' : List (List String), l'.Nodup ∧ ∀ a, a ∈ l' ↔ a ∈ l := by
    intro l
    induction l with
    | nil => exact ⟨[], List.nodup_nil, fun _ => Iff.rfl⟩
    | cons a l ih =>
      obtain ⟨l', g1, g2⟩ := ih
      by_cases ha : a ∈ l'
      · refine ⟨l', g1, fun b => ?_⟩
        rw [g2, List.mem_cons]
        refine ⟨.inr, ?_⟩
        rintro (rfl | h)
        · exact (g2 _).1 ha
        · exact h
      · exact ⟨a :: l', List.nodup_cons.2 ⟨ha, g1⟩, fun b => by rw [List.mem_cons, List.mem_cons, g2]⟩
  refine ⟨?_, ?_⟩
  · intro ht u hne
    obtain ⟨ss, s1, s2⟩ := nd (xls.flatMap fun xl => xl.2.map fun p => p.s)
    refine ⟨ss, s1, ?_, ?_⟩
    · have hcl : ∀ hs ∈ ss, "<UNUSED_WORD>" ∉ hs := by
        intro hs hm
        obtain ⟨xl, hxl, hm⟩ := List.mem_flatMap.1 ((s2 hs).1 hm)
        obtain ⟨p, hp, rfl⟩ := List.mem_map.1 hm
        exact (ok xl hxl p hp).1
      rw [(h4 n1 n2 [] ht (by simp) u hne).2.2, sumAll_split _ (fun a _ => a) xls ss s1 (fun xl hxl p hp _ =>
        (s2 _).2 (List.mem_flatMap.2 ⟨xl, hxl, List.mem_map.2 ⟨p, hp, rfl⟩⟩))]
      congr 1
      apply List.map_congr_left
      intro hs hm
      rw [(h4 n1 n2 hs ht (hcl hs hm) u hne).1]
      congr 1
      funext a b
      rw [Bool.eq_iff_iff]; simp [and_comm]
    · intro hs hu hm
      rw [(h4 n1 n2 hs ht hu u hne).1]
      apply sumAll_none
      intro xl hxl p hp
      rw [decide_eq_false_iff_not]
      rintro ⟨rfl, _⟩
      exact hm ((s2 _).2 (List.mem_flatMap.2 ⟨xl, hxl, List.mem_map.2 ⟨p, hp, rfl⟩⟩))
  · intro hs u
    obtain ⟨ts, s1, s2⟩ := nd (xls.flatMap fun xl => xl.2.map fun p => p.t)
    refine ⟨ts, s1, ?_, ?_⟩
    · have hcl : ∀ ht ∈ ts, "<UNUSED_WORD>" ∉ ht ∧ ht ≠ [] := by
        intro ht hm
        obtain ⟨xl, hxl, hm⟩ := List.mem_flatMap.1 ((s2 ht).1 hm)
        obtain ⟨p, hp, rfl⟩ := List.mem_map.1 hm
        exact (ok xl hxl p hp).2
      rw [(h4 n1 n2 hs ["a"] u (by decide) (by simp)).2.1, sumAll_split _ (fun _ b => b) xls ts s1 (fun xl hxl p hp _ =>
        (s2 _).2 (List.mem_flatMap.2 ⟨xl, hxl, List.mem_map.2 ⟨p, hp, rfl⟩⟩))]
      congr 1
      apply List.map_congr_left
      intro ht hm
      rw [(h4 n1 n2 hs ht u (hcl ht hm).1 (hcl ht hm).2).1]
      congr 1
      funext a b
      rw [Bool.eq_iff_iff]; simp
    · intro ht hu hne hm
      rw [(h4 n1 n2 hs ht u hu hne).1]
      apply sumAll_none
      intro xl hxl p hp
      rw [decide_eq_false_iff_not]
      rintro ⟨_, rfl⟩
      exact hm ((s2 _).2 (List.mem_flatMap.2 ⟨xl, hxl, List.mem_map.2 ⟨p, hp, rfl⟩⟩))

/-! Examples: two sentence pairs, the second in segmentation-based mode and with two repetitions. -/

def exItems : List Item :=
  [⟨⟨4, true, true, false⟩, false, ["NULL", "a", "b"], ["x", "y"], ⟨2, 2, fun i j => if i = j then 1 else 0⟩, 1⟩,
   ⟨⟨4, true, true, false⟩, true, ["NULL", "a", "b"], ["x", "z"], ⟨2, 2, fun i j => if i = j then 1 else 0⟩, 2⟩]

example : ∀ x ∈ exItems, ItemOk x := by
  intro x hx
  simp only [exItems, List.mem_cons, List.not_mem_nil, or_false] at hx
  rcases hx with rfl | rfl <;> exact ⟨by decide, rfl, rfl, by decide, by decide⟩

example : (generate exItems).map (fun st => (cHSrcHTrg st ["a".toList] ["x".toList], cHSrc st ["b".toList], cHTrg st ["x".toList, "z".toList],
    decide (size st.sv ≤ 254 ^ 3 ∧ size st.tv ≤ 254 ^ 3))) = some (2, 2, 1, true) := by decide +kernel

end Thot.PhrTrain
