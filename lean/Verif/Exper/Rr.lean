import Verif.Exper.Model
import Mathlib.Analysis.SpecialFunctions.Log.Basic
/-!
# C291–C293: repetition rates
-/
namespace Thot.Exper

open Thot
open Thot.SentHandler (joinWords Word fields_join)
open Thot.Awk (fields)
open Thot.Vocab (showNat)
open Thot.PhrTools (leText runs Contig runs_contig join_inj prefix_between)

/-! ### Specification -/

/-- An entry of a count file: n-gram, count of its history, count. -/
structure Ent where
  ngram : List W
  hist : Nat
  count : Nat
deriving DecidableEq

/-- Its line. -/
def Ent.line (e : Ent) : W := joinWords (e.ngram ++ [showNat e.hist, showNat e.count])

/-- Words, one or more. -/
def Ent.Ok (e : Ent) : Prop := e.ngram ≠ [] ∧ ∀ w ∈ e.ngram, Word w

/-- The entries of order `n`. -/
def ofOrder (n : Nat) (es : List Ent) : List Ent := es.filter fun e => decide (e.ngram.length = n)

/-! ### C291: statistics -/

theorem Ent.words (e : Ent) (h : e.Ok) : ∀ w ∈ e.ngram ++ [showNat e.hist, showNat e.count], Word w := by
  intro w hw
  rcases List.mem_append.1 hw with hw | hw
  · exact h.2 w hw
  · simp only [List.mem_cons, List.not_mem_nil, or_false] at hw
    rcases hw with rfl | rfl <;> exact NbTools.word_showNat _

theorem Ent.fields_line (e : Ent) (h : e.Ok) : fields ' ' e.line = e.ngram ++ [showNat e.hist, showNat e.count] := fields_join (e.words h)

theorem Ent.nf_line (e : Ent) (h : e.Ok) : (nf e.line = n + 2) ↔ e.ngram.length = n := by
  unfold nf; rw [e.fields_line h]; simp

theorem Ent.last_line (e : Ent) (h : e.Ok) : val (lastFld e.line) = e.count := by
  unfold lastFld val; rw [e.fields_line h]
  simp [Vocab.atoiDigits_showNat]

theorem stat_folds (n : Nat) (es : List Ent) (h : ∀ e ∈ es, e.Ok) : ∀ a : Nat,
    (es.map Ent.line).foldl (fun s l => if nf l = n + 2 then s + val (lastFld l) else s) a = a + ((ofOrder n es).map Ent.count).sum ∧
    (es.map Ent.line).foldl (fun s l => if nf l = n + 2 then s + 1 else s) a = a + (ofOrder n es).length ∧
    (es.map Ent.line).foldl (fun s l => if nf l = n + 2 ∧ val (lastFld l) = 1 then s + 1 else s) a =
      a + (ofOrder n es).countP fun e => decide (e.count = 1) := by
  induction es with
  | nil => intro a; exact ⟨rfl, rfl, rfl⟩
  | cons e es ih =>
    intro a
    have he := h e List.mem_cons_self
    have ih := ih fun x hx => h x (List.mem_cons_of_mem _ hx)
    simp only [List.map_cons, List.foldl_cons]
    rw [(ih _).1, (ih _).2.1, (ih _).2.2]
    by_cases hn : e.ngram.length = n
    · have ho : ofOrder n (e :: es) = e :: ofOrder n es := List.filter_cons_of_pos (by simpa using hn)
      rw [if_pos ((e.nf_line he).2 hn), if_pos ((e.nf_line he).2 hn), e.last_line he, ho]
      simp only [List.map_cons, List.sum_cons, List.length_cons, List.countP_cons, decide_eq_true_eq, (e.nf_line he).2 hn, true_and]
      refine ⟨by omega, by omega, ?_⟩
      split <;> omega
    · have ho : ofOrder n (e :: es) = ofOrder n es := List.filter_cons_of_neg (by simpa using hn)
      have hnf : ¬ nf e.line = n + 2 := fun h => hn ((e.nf_line he).1 h)
      rw [if_neg hnf, if_neg hnf, if_neg (fun h => hnf h.1), ho]
      exact ⟨rfl, rfl, rfl⟩

/-- C291: from a count file the script gets, for each order, the total number of n-grams, the number of different ones and the number of those seen
once; the rate times the number of different n-grams is the number of those seen more than once, and is 0 when there are none. -/
theorem C291_statistics (n : Nat) (es : List Ent) (h : ∀ e ∈ es, e.Ok) (hc : ∀ e ∈ es, 1 ≤ e.count) :
    totalN n (es.map Ent.line) = ((ofOrder n es).map Ent.count).sum ∧
    distN n (es.map Ent.line) = (ofOrder n es).length ∧
    singN n (es.map Ent.line) = (ofOrder n es).countP (fun e => decide (e.count = 1)) ∧
    rateN n (es.map Ent.line) * (ofOrder n es).length = (ofOrder n es).countP (fun e => decide (1 < e.count)) ∧
    (ofOrder n es = [] → rateN n (es.map Ent.line) = 0) ∧
    0 ≤ rateN n (es.map Ent.line) ∧ rateN n (es.map Ent.line) ≤ 1 := by
  have h1 : totalN n (es.map Ent.line) = _ := (stat_folds n es h 0).1
  have h2 : distN n (es.map Ent.line) = _ := (stat_folds n es h 0).2.1
  have h3 : singN n (es.map Ent.line) = _ := (stat_folds n es h 0).2.2
  rw [Nat.zero_add] at h1 h2 h3
  refine ⟨h1, h2, h3, ?_⟩
  have hsub : ∀ e ∈ ofOrder n es, 1 ≤ e.count := fun e he => hc e (List.mem_filter.1 he).1
  unfold rateN
  rw [h2, h3]
  generalize ofOrder n es = l at hsub
  have hsplit : (l.countP (fun e => decide (e.count = 1))) + l.countP (fun e => decide (1 < e.count)) = l.length := by
    rw [List.length_eq_countP_add_countP (fun e : Ent => decide (e.count = 1))]
    congr 1
    apply List.countP_congr
    intro e he
    have := hsub e he
    simp only [decide_eq_true_eq]
    omega
  generalize l.countP (fun e => decide (e.count = 1)) = s at hsplit
  generalize l.countP (fun e => decide (1 < e.count)) = m at hsplit
  by_cases hz : l.length = 0
  · rw [if_pos hz]
    refine ⟨?_, fun _ => rfl, Rat.le_refl, by decide⟩
    have : m = 0 := by omega
    rw [this, hz]; simp
  · rw [if_neg hz]
    have hz' : (l.length : Rat) ≠ 0 := by exact_mod_cast hz
    have hpos : (0 : Rat) < (l.length : Rat) := by exact_mod_cast Nat.pos_of_ne_zero hz
    have e : (l.length : Rat) - s = m := by rw [← hsplit]; push_cast; grind
    rw [e]
    refine ⟨Rat.div_mul_cancel hz', ?_, ?_, ?_⟩
    · intro hl; rw [hl] at hz; exact absurd rfl hz
    · exact div_nonneg (by exact_mod_cast Nat.zero_le m) (le_of_lt hpos)
    · rw [div_le_one hpos]; exact_mod_cast (by omega : m ≤ l.length)

/-! ### C292: n-grams of the corpus that are not in the training corpus -/

theorem leText_self (a r : W) (h : leText (a ++ r) a = true) : r = [] := by
  induction a with
  | nil => cases r with
    | nil => rfl
    | cons c r => simp [leText] at h
  | cons c a ih =>
    rw [List.cons_append, leText, if_neg (show ¬ c < c from fun h => by
      have h' : c.val < c.val := h
      exact absurd h' (UInt32.lt_irrefl _)), if_pos rfl] at h
    exact ih h

theorem sorted_contig {out inp : List NgLine} (h : IsSortNg out inp) : Contig NgLine.key out := by
  intro a b c hs hk
  have hp := h.2.sublist hs
  simp only [List.pairwise_cons, List.mem_cons, List.not_mem_nil, or_false, forall_eq_or_imp, forall_eq] at hp
  have hab := hp.1.1
  have hbc := hp.2.1
  rw [← hk] at hbc
  obtain ⟨r, hr⟩ := prefix_between (List.prefix_refl a.key) (List.prefix_refl a.key) hab hbc
  rw [← hr] at hbc
  rw [← hr, leText_self _ _ hbc, List.append_nil]

theorem filter_single {l : List NgLine} {a : NgLine} {s : W} (h : (l.filter fun b => decide (b.key = s)) = [a]) : a ∈ l ∧ a.key = s := by
  have : a ∈ l.filter fun b => decide (b.key = s) := by rw [h]; exact List.mem_cons_self
  obtain ⟨h1, h2⟩ := List.mem_filter.1 this
  exact ⟨h1, by simpa using h2⟩

theorem uniqU_mem {out : List NgLine} (h : Contig NgLine.key out) (a : NgLine) :
    a ∈ uniqU out ↔ (out.filter fun b => decide (b.key = a.key)) = [a] := by
  obtain ⟨ks, hnd, hmem, hruns⟩ := runs_contig NgLine.key out h
  unfold uniqU
  rw [hruns, List.mem_filterMap]
  constructor
  · rintro ⟨g, hg, hga⟩
    obtain ⟨s, hs, rfl⟩ := List.mem_map.1 hg
    dsimp only at hga
    split at hga
    · rename_i x hx
      injection hga with hga
      subst hga
      have := (filter_single hx).2
      rw [this]; exact hx
    · cases hga
  · intro hf
    refine ⟨(a.key, out.filter fun b => decide (b.key = a.key)), ?_, ?_⟩
    · refine List.mem_map.2 ⟨a.key, (hmem _).2 ⟨a, (filter_single hf).1, rfl⟩, rfl⟩
    · dsimp only; rw [hf]

theorem uniqU_nodup {out : List NgLine} (h : Contig NgLine.key out) : (uniqU out).Nodup := by
  obtain ⟨ks, hnd, hmem, hruns⟩ := runs_contig NgLine.key out h
  unfold uniqU
  rw [hruns, List.filterMap_map]
  refine List.Pairwise.filterMap _ ?_ hnd
  intro s t hst a ha b hb
  dsimp only [Function.comp] at ha hb
  split at ha
  · rename_i x hx
    injection ha with ha
    subst ha
    split at hb
    · rename_i y hy
      injection hb with hb
      subst hb
      intro he
      exact hst ((filter_single hx).2.symm.trans (he ▸ (filter_single hy).2))
    · cases hb
  · cases ha

/-- The line of an entry with its label. -/
def Ent.ng (label : W) (e : Ent) : NgLine := ⟨label, showNat e.hist, showNat e.count, e.ngram⟩

theorem transform_eq (label : W) (es : List Ent) (h : ∀ e ∈ es, e.Ok) : transform label (es.map Ent.line) = es.map (Ent.ng label) := by
  unfold transform
  rw [List.map_map]
  apply List.map_congr_left
  intro e he
  dsimp only [Function.comp]
  rw [e.fields_line (h e he)]
  unfold Ent.ng
  simp

/-- C292: the n-grams obtained are those of the corpus that are not in the training corpus, with their counts, each of them once; in particular it does not
matter how the lines with the same text were sorted. -/
theorem C292_unseen (corpus train : List Ent) (h1 : ∀ e ∈ corpus, e.Ok) (h2 : ∀ e ∈ train, e.Ok)
    (d1 : (corpus.map Ent.ngram).Nodup) (sorted : List NgLine)
    (hs : IsSortNg sorted (transform labCorpus (corpus.map Ent.line) ++ transform labTrain (train.map Ent.line))) :
    (unseen sorted).Perm ((corpus.filter fun e => decide (e.ngram ∉ train.map Ent.ngram)).map fun e =>
      e.ngram ++ [showNat e.hist, showNat e.count]) := by
  rw [transform_eq _ _ h1, transform_eq _ _ h2] at hs
  have hc := sorted_contig hs
  have key : ∀ lab e, (Ent.ng lab e).key = joinWords e.ngram := fun _ _ => rfl
  have hlc : labCorpus.isPrefixOf labTrain = false := by decide
  have hlcc : labCorpus.isPrefixOf labCorpus = true := by decide
  -- the lines with the key of an n-gram
  have hfilt : ∀ e ∈ corpus, ((corpus.map (Ent.ng labCorpus) ++ train.map (Ent.ng labTrain)).filter fun b => decide (b.key = joinWords e.ngram)) =
      Ent.ng labCorpus e :: (train.filter fun t => decide (t.ngram = e.ngram)).map (Ent.ng labTrain) := by
    intro e he
    rw [List.filter_append, List.filter_map, List.filter_map]
    have e1 : corpus.filter ((fun b => decide (b.key = joinWords e.ngram)) ∘ Ent.ng labCorpus) = [e] := by
      have : corpus.filter ((fun b => decide (b.key = joinWords e.ngram)) ∘ Ent.ng labCorpus) = corpus.filter fun x => decide (x = e) := by
        apply List.filter_congr
        intro x hx
        simp only [Function.comp, decide_eq_decide]
        constructor
        · intro hk
          have hng : x.ngram = e.ngram := join_inj (h1 x hx).2 (h1 e he).2 hk
          exact List.inj_on_of_nodup_map d1 hx he hng
        · rintro rfl; rfl
      rw [this]
      have hcount : corpus.Nodup := List.Nodup.of_map _ d1
      clear this hs d1 h1
      induction corpus with
      | nil => cases he
      | cons x xs ih =>
        obtain ⟨n1, n2⟩ := List.nodup_cons.1 hcount
        rcases List.mem_cons.1 he with rfl | he'
        · rw [List.filter_cons_of_pos (by simp)]
          congr 1
          rw [List.filter_eq_nil_iff]
          intro y hy
          simp only [decide_eq_true_eq]
          rintro rfl
          exact n1 hy
        · rw [List.filter_cons_of_neg (by simp only [decide_eq_true_eq]; rintro rfl; exact n1 he')]
          exact ih he' n2
    have e2 : train.filter ((fun b => decide (b.key = joinWords e.ngram)) ∘ Ent.ng labTrain) = train.filter fun t => decide (t.ngram = e.ngram) := by
      apply List.filter_congr
      intro t ht
      simp only [Function.comp, decide_eq_decide]
      exact ⟨fun hk => join_inj (h2 t ht).2 (h1 e he).2 hk, fun hk => by rw [key, hk]⟩
    rw [e1, e2]
    rfl
  have hng_inj : ∀ x y : Ent, Ent.ng labCorpus x = Ent.ng labCorpus y → x = y := by
    intro x y hxy
    have a1 : showNat x.hist = showNat y.hist := congrArg NgLine.hist hxy
    have a2 : showNat x.count = showNat y.count := congrArg NgLine.count hxy
    have a3 : x.ngram = y.ngram := congrArg NgLine.ngram hxy
    have b1 := congrArg (Vocab.atoiDigits 0) a1
    have b2 := congrArg (Vocab.atoiDigits 0) a2
    rw [Vocab.atoiDigits_showNat, Vocab.atoiDigits_showNat] at b1 b2
    cases x; cases y; simp_all
  have hperm : ((uniqU sorted).filter fun e => labCorpus.isPrefixOf e.label).Perm
      ((corpus.filter fun e => decide (e.ngram ∉ train.map Ent.ngram)).map (Ent.ng labCorpus)) := by
    rw [List.perm_ext_iff_of_nodup ((uniqU_nodup hc).filter _)
      (List.Nodup.map hng_inj ((List.Nodup.of_map _ d1).filter _))]
    intro a
    rw [List.mem_filter, uniqU_mem hc, List.mem_map]
    have hpf : ∀ s : W, ((sorted.filter fun b => decide (b.key = s))).Perm
        ((corpus.map (Ent.ng labCorpus) ++ train.map (Ent.ng labTrain)).filter fun b => decide (b.key = s)) := fun s => hs.1.filter _
    constructor
    · rintro ⟨hf, hlab⟩
      have hin := hs.1.mem_iff.1 (filter_single hf).1
      rcases List.mem_append.1 hin with hin | hin
      · obtain ⟨e, he, rfl⟩ := List.mem_map.1 hin
        refine ⟨e, List.mem_filter.2 ⟨he, ?_⟩, rfl⟩
        simp only [decide_eq_true_eq]
        intro hm
        obtain ⟨t, ht, hte⟩ := List.mem_map.1 hm
        have hl := (hpf (joinWords e.ngram)).length_eq
        rw [hfilt e he, show sorted.filter (fun b => decide (b.key = joinWords e.ngram)) = [Ent.ng labCorpus e] from hf] at hl
        have : t ∈ train.filter fun t => decide (t.ngram = e.ngram) := List.mem_filter.2 ⟨ht, by simpa using hte⟩
        simp only [List.length_cons, List.length_nil, List.length_map] at hl
        have hlen : 0 < (train.filter fun t => decide (t.ngram = e.ngram)).length := List.length_pos_of_mem this
        omega
      · obtain ⟨t, ht, rfl⟩ := List.mem_map.1 hin
        have : labCorpus.isPrefixOf labTrain = true := hlab
        rw [hlc] at this; cases this
    · rintro ⟨e, he, rfl⟩
      obtain ⟨he, hnt⟩ := List.mem_filter.1 he
      simp only [decide_eq_true_eq] at hnt
      refine ⟨?_, hlcc⟩
      have hp := hpf (joinWords e.ngram)
      rw [hfilt e he, show (train.filter fun t => decide (t.ngram = e.ngram)) = [] from by
        rw [List.filter_eq_nil_iff]
        intro t ht
        simp only [decide_eq_true_eq]
        intro hte
        exact hnt (List.mem_map.2 ⟨t, ht, hte⟩)] at hp
      exact List.perm_singleton.1 hp
  unfold unseen
  refine (hperm.map _).trans ?_
  rw [List.map_map]
  exact List.Perm.refl _

/-! ### C293: the results -/

/-- `compute_rr` and `compute_unf` (thot_repetition_rate.sh:42-45, 82-85): in the model of real numbers; the result is shown with three decimals. -/
noncomputable def geo (a b c d : Rat) : ℝ :=
  if a = 0 ∨ b = 0 ∨ c = 0 ∨ d = 0 then 0 else Real.exp (1 / 4 * Real.log ((a : ℝ) * b * c * d))

/-- C293: the repetition rate (and the unseen n-gram fraction) is the geometric mean of the four values, 0 only if one of them is 0, and at most 1
if they are. -/
theorem C293_geometric (a b c d : Rat) (ha : 0 ≤ a) (hb : 0 ≤ b) (hc : 0 ≤ c) (hd : 0 ≤ d) :
    (geo a b c d) ^ 4 = (a : ℝ) * b * c * d ∧ 0 ≤ geo a b c d ∧ (geo a b c d = 0 ↔ a = 0 ∨ b = 0 ∨ c = 0 ∨ d = 0) ∧
      (a ≤ 1 → b ≤ 1 → c ≤ 1 → d ≤ 1 → geo a b c d ≤ 1) := by
  unfold geo
  split
  · rename_i h
    refine ⟨?_, le_refl _, by simp [h], fun _ _ _ _ => zero_le_one⟩
    rcases h with h | h | h | h <;> subst h <;> simp
  · rename_i h
    have pa : (0 : ℝ) < a := by exact_mod_cast lt_of_le_of_ne ha (fun e => h (.inl e.symm))
    have pb : (0 : ℝ) < b := by exact_mod_cast lt_of_le_of_ne hb (fun e => h (.inr (.inl e.symm)))
    have pc : (0 : ℝ) < c := by exact_mod_cast lt_of_le_of_ne hc (fun e => h (.inr (.inr (.inl e.symm))))
    have pd : (0 : ℝ) < d := by exact_mod_cast lt_of_le_of_ne hd (fun e => h (.inr (.inr (.inr e.symm))))
    have pp : (0 : ℝ) < (a : ℝ) * b * c * d := mul_pos (mul_pos (mul_pos pa pb) pc) pd
    refine ⟨?_, (Real.exp_pos _).le, ?_, ?_⟩
    · rw [← Real.exp_nat_mul]
      rw [show ((4 : ℕ) : ℝ) * (1 / 4 * Real.log ((a : ℝ) * b * c * d)) = Real.log ((a : ℝ) * b * c * d) from by push_cast; ring]
      exact Real.exp_log pp
    · exact ⟨fun he => absurd he (Real.exp_pos _).ne', fun he => absurd he h⟩
    · intro a1 b1 c1 d1
      have a1' : (a : ℝ) ≤ 1 := by exact_mod_cast a1
      have b1' : (b : ℝ) ≤ 1 := by exact_mod_cast b1
      have c1' : (c : ℝ) ≤ 1 := by exact_mod_cast c1
      have d1' : (d : ℝ) ≤ 1 := by exact_mod_cast d1
      rw [Real.exp_le_one_iff]
      have : (a : ℝ) * b * c * d ≤ 1 :=
        mul_le_one₀ (mul_le_one₀ (mul_le_one₀ a1' pb.le b1') pc.le c1') pd.le d1'
      have := Real.log_nonpos pp.le this
      linarith

/-- Full statement of C293: the fractions printed are those of the four orders. -/
def C293_full : Prop := ∀ corpus diff : List W, unfPrinted corpus diff = (List.range 4).map fun k => unfN (k + 1) corpus diff

/-- C293 for the first three fractions. Missing: the last one printed is again the third. -/
theorem C293_printed_partial (corpus diff : List W) (k : Nat) (hk : k < 3) : (unfPrinted corpus diff)[k]? = some (unfN (k + 1) corpus diff) := by
  match k, hk with
  | 0, _ => rfl
  | 1, _ => rfl
  | 2, _ => rfl

/-- With one 4-gram. -/
theorem C293_counterexample : ¬ C293_full := by
  intro h
  have := h ["a b c d 1 1".toList] ["a b c d 1 1".toList]
  have := congrArg (fun l => l[3]?) this
  revert this
  decide +kernel

/-- C293: the fraction is the part of the n-grams of the corpus (with repetitions) that are not in the training corpus. -/
theorem C293_fraction (n : Nat) (corpus diff : List Ent) (h1 : ∀ e ∈ corpus, e.Ok) (h2 : ∀ e ∈ diff, e.Ok)
    (hs : diff.Sublist corpus) :
    (unfN n (corpus.map Ent.line) (diff.map Ent.line) = none ↔ ((ofOrder n corpus).map Ent.count).sum = 0) ∧
    ∀ q, unfN n (corpus.map Ent.line) (diff.map Ent.line) = some q →
      q * ((ofOrder n corpus).map Ent.count).sum = ((ofOrder n diff).map Ent.count).sum ∧ 0 ≤ q ∧ q ≤ 1 := by
  have e1 : totalN n (corpus.map Ent.line) = _ := (stat_folds n corpus h1 0).1
  have e2 : totalN n (diff.map Ent.line) = _ := (stat_folds n diff h2 0).1
  rw [Nat.zero_add] at e1 e2
  have hle : ((ofOrder n diff).map Ent.count).sum ≤ ((ofOrder n corpus).map Ent.count).sum :=
    ((hs.filter _).map _).sum_le_sum (by intro x _; exact Nat.zero_le x)
  unfold unfN
  rw [e1, e2]
  generalize ((ofOrder n corpus).map Ent.count).sum = c at hle
  generalize ((ofOrder n diff).map Ent.count).sum = d at hle
  by_cases hc : c = 0
  · rw [if_pos hc]
    exact ⟨by simp [hc], fun q h => by cases h⟩
  · rw [if_neg hc]
    refine ⟨by simp [hc], ?_⟩
    intro q h
    injection h with h
    subst h
    have hc' : (c : Rat) ≠ 0 := by exact_mod_cast hc
    have hp : (0 : Rat) < c := by exact_mod_cast Nat.pos_of_ne_zero hc
    refine ⟨Rat.div_mul_cancel hc', div_nonneg (by exact_mod_cast Nat.zero_le d) hp.le, ?_⟩
    rw [div_le_one hp]; exact_mod_cast hle

example : ∀ e ∈ [(⟨[['a']], 5, 2⟩ : Ent), ⟨[['a'], ['b']], 2, 1⟩], e.Ok ∧ 1 ≤ e.count := by
  intro e he
  simp only [List.mem_cons, List.not_mem_nil, or_false] at he
  rcases he with rfl | rfl <;> exact ⟨⟨by simp, by unfold Word; decide⟩, by decide⟩

end Thot.Exper
