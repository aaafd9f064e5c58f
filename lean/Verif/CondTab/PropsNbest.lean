import Verif.CondTab.Props
import Verif.Nbest.Props
/-!
# C303–C304: the n-best lists of the conditional probability table
-/
namespace Thot.CondTab

open Thot Thot.AMap

variable {S T : Type} [DecidableEq S] [DecidableEq T]

/-- A logarithm: strictly increasing, zero at one. -/
structure IsLog (lg : Nat → Int) : Prop where
  mono : ∀ a b, a < b → lg a < lg b
  one : lg 1 = 0

theorem isLog_mono {lg : Nat → Int} (h : IsLog lg) {a b : Nat} (hl : lg a ≤ lg b) : a ≤ b := by
  rcases Nat.lt_or_ge b a with hlt | hge
  · have := h.mono b a hlt; omega
  · exact hge

/-! ### C303: n-best targets of a source -/

/-- The list has each target of `s` once, by decreasing `p(t|s)`. -/
def NbestOfSrc (m : Tab S T) (s : S) (r : Nbest.Table T) : Prop :=
  (r.map Prod.snd).Nodup ∧ (∀ t, t ∈ r.map Prod.snd ↔ (getSrcTrgInfo m s t).isSome) ∧
  r.Pairwise (fun a b => (pTrgGivenSrc m s b.2).getD 0 ≤ (pTrgGivenSrc m s a.2).getD 0)

/-- C303 in full: moreover the score of a target is `log p(t|s)`. -/
def C303_full : Prop :=
  ∀ (lg : Nat → Int) (ops : List (Op Nat Nat)) (s : Nat), IsLog lg → Sourced (fun _ => none) ops →
    ∃ b r, getNbestForSrc lg (run ops) s = some (b, r) ∧ NbestOfSrc (run ops) s r ∧
      ∀ e ∈ r, ∀ cs cst, getSrcInfo (run ops) s = some cs → getSrcTrgInfo (run ops) s e.2 = some cst →
        e.1 = lg cst - lg cs

/-- A single event seen once has probability one and gets the score −1 instead of 0. -/
theorem C303_counterexample : ¬ C303_full := by
  intro h
  obtain ⟨b, r, hr, _, hs⟩ := h (fun n => (n : Int) - 1) [.incr 1 2 1] 1
    ⟨fun a b hab => by omega, rfl⟩ ⟨trivial, trivial⟩
  have h1 : getNbestForSrc (fun n => (n : Int) - 1) (run [.incr 1 2 1]) 1 = some (true, [((-1 : Int), 2)]) := by
    decide +kernel
  rw [h1] at hr
  cases hr
  have := hs (-1, 2) (by simp) 1 1 (by decide +kernel) (by decide +kernel)
  revert this
  decide +kernel

theorem nodup_scores {A : Type} {f : Nat × Nat → Int} {l : List (A × Nat × Nat)} (h : (l.map Prod.fst).Nodup) :
    ((MMap.insAll [] (l.map (fun e => (f e.2, e.1)))).map Prod.snd).Nodup := by
  have hp := (MMap.perm_insAll [] (l.map (fun e => (f e.2, e.1)))).map Prod.snd
  rw [hp.nodup_iff]
  simpa [List.map_map, Function.comp_def] using h

theorem mem_scores {A : Type} {f : Nat × Nat → Int} {l : List (A × Nat × Nat)} {x : Int × A} :
    x ∈ MMap.insAll [] (l.map (fun e => (f e.2, e.1))) ↔ ∃ e ∈ l, x = (f e.2, e.1) := by
  rw [(MMap.perm_insAll [] _).mem_iff]
  simp only [List.append_nil, List.mem_map]
  constructor <;> (rintro ⟨e, he, hx⟩; exact ⟨e, he, hx.symm⟩)

/-- C303: the n-best list of a source has each of its targets once, by decreasing probability (whatever the
logarithm).  Missing: `C303_full`, refuted above: the scores are not the log-probabilities (a count is subtracted from
a logarithm); within one source the error is constant. -/
theorem C303_order_partial (lg : Nat → Int) (ops : List (Op S T)) (s : S) (hlg : IsLog lg)
    (h : Sourced (fun _ => none) ops) :
    ∃ b r, getNbestForSrc lg (run ops) s = some (b, r) ∧ NbestOfSrc (run ops) s r ∧
      ∀ e ∈ r, ∀ cs cst, getSrcInfo (run ops) s = some cs → getSrcTrgInfo (run ops) s e.2 = some cst →
        e.1 = lg cst - cs := by
  obtain ⟨b, l, hl, ⟨hd, hm⟩, _⟩ := (C302_entries_partial ops h).2 s
  refine ⟨b, MMap.insAll [] (l.map (fun e => (scoreForSrc lg e.2.1 e.2.2, e.1))), by simp [getNbestForSrc, hl], ⟨?_, ?_, ?_⟩, ?_⟩
  · exact nodup_scores (f := fun p => scoreForSrc lg p.1 p.2) hd
  · intro t
    rw [List.mem_map]
    constructor
    · rintro ⟨x, hx, rfl⟩
      obtain ⟨e, he, rfl⟩ := (mem_scores (f := fun p => scoreForSrc lg p.1 p.2)).1 hx
      simp [((hm e.1 e.2.1 e.2.2).1 he).1]
    · intro ht
      obtain ⟨cst, hcst⟩ := Option.isSome_iff_exists.1 ht
      obtain ⟨cs, hcs⟩ := Option.isSome_iff_exists.1 (covered_run h s t ht)
      exact ⟨(scoreForSrc lg cs cst, t), (mem_scores (f := fun p => scoreForSrc lg p.1 p.2)).2
        ⟨(t, cs, cst), (hm t cs cst).2 ⟨hcst, hcs⟩, rfl⟩, rfl⟩
  · have hdesc : MMap.Desc (MMap.insAll [] (l.map (fun e => (scoreForSrc lg e.2.1 e.2.2, e.1)))) :=
      MMap.desc_insAll List.Pairwise.nil _
    refine List.Pairwise.imp_of_mem ?_ hdesc
    intro a b ha hb hab
    obtain ⟨ea, hea, rfl⟩ := (mem_scores (f := fun p => scoreForSrc lg p.1 p.2)).1 ha
    obtain ⟨eb, heb, rfl⟩ := (mem_scores (f := fun p => scoreForSrc lg p.1 p.2)).1 hb
    obtain ⟨a1, a2⟩ := (hm ea.1 ea.2.1 ea.2.2).1 hea
    obtain ⟨b1, b2⟩ := (hm eb.1 eb.2.1 eb.2.2).1 heb
    have hcs : ea.2.1 = eb.2.1 := by rw [a2] at b2; injection b2
    have hp : ∀ {t cs cst}, getSrcTrgInfo (run ops) s t = some cst → getSrcInfo (run ops) s = some cs →
        (pTrgGivenSrc (run ops) s t).getD 0 = if cs = 0 then 0 else (cst : Rat) / (cs : Rat) := by
      intro t cs cst h1 h2
      unfold pTrgGivenSrc infSrcTrg
      unfold getSrcTrgInfo at h1
      unfold getSrcInfo at h2
      cases hl : lk (run ops).tbl t with
      | none => rw [hl] at h1; cases h1
      | some node =>
        rw [hl] at h1
        simp only [h1, h2]
        by_cases h0 : cs = 0 <;> simp [h0]
    rw [hp a1 a2, hp b1 b2, hcs]
    dsimp only at hab
    unfold scoreForSrc at hab
    rw [hcs] at hab
    have hle := isLog_mono hlg (a := eb.2.2) (b := ea.2.2) (by omega)
    split <;> rename_i h0
    · exact Rat.le_refl
    · rw [Rat.div_def, Rat.div_def]
      refine Rat.mul_le_mul_of_nonneg_right (Rat.natCast_le_natCast.2 hle) ?_
      exact Rat.le_of_lt (Rat.inv_pos.2 (Rat.natCast_pos.2 (Nat.pos_of_ne_zero h0)))
  · intro e he cs cst h1 h2
    obtain ⟨x, hx, rfl⟩ := (mem_scores (f := fun p => scoreForSrc lg p.1 p.2)).1 he
    obtain ⟨e1, e2⟩ := (hm x.1 x.2.1 x.2.2).1 hx
    dsimp only at h2
    rw [h2] at e1; rw [h1] at e2
    cases e1; cases e2
    rfl

/-- Non-vacuity. -/
example : getNbestForSrc (fun n => (n : Int) - 1) (run [.incr 1 "a" 3, .incr 1 "b" 4, .incr 2 "b" 9]) 1 =
    some (true, [((-4 : Int), "b"), ((-5 : Int), "a")]) := by decide +kernel

/-! ### C304: n-best sources of a target -/

/-- C304 in full: the first `N` sources of the target (all for a negative `N`), by decreasing `p(t|s)`. -/
def C304_full : Prop :=
  ∀ (ops : List (Op Nat Nat)) (t : Nat) (n : Option Nat), Sourced (fun _ => none) ops →
    ∃ b r l, getNbestForTrg (run ops) t n = some (b, r) ∧ (l.map Prod.snd).Nodup ∧
      (∀ s, s ∈ l.map Prod.snd ↔ (getSrcTrgInfo (run ops) s t).isSome) ∧
      l.Pairwise (fun a b => (pTrgGivenSrc (run ops) b.2 t).getD 0 ≤ (pTrgGivenSrc (run ops) a.2 t).getD 0) ∧
      r = (match n with | none => l | some k => l.take k)

/-- The source 1 gives the target 7 with probability 9/10 and the source 2 with probability 1/2; the source 2 comes
first. -/
theorem C304_counterexample : ¬ C304_full := by
  intro h
  obtain ⟨b, r, l, hr, _, _, hp, hl⟩ := h [.entry 1 7 100 90, .entry 2 7 2 1] 7 none ⟨trivial, trivial, trivial⟩
  have h1 : getNbestForTrg (run [.entry 1 7 100 90, .entry 2 7 2 1]) 7 none =
      some (true, [((-1 : Int), 2), ((-10 : Int), 1)]) := by decide +kernel
  rw [h1] at hr
  cases hr
  dsimp only at hl
  rw [← hl] at hp
  have := (List.pairwise_cons.1 hp).1 (-10, 1) (by simp)
  revert this
  decide +kernel

/-- C304: for a positive or negative `N`, the result is the first `N` sources of the target (all of them), each once,
by decreasing difference between the count of the pair and the count of the source.  Missing: `C304_full`, refuted
above (the order is not that of the probabilities), and `N = 0`, for which the last element is erased through a
decremented `begin()`. -/
theorem C304_difference_partial (ops : List (Op S T)) (t : T) (n : Option Nat) (hn : n ≠ some 0)
    (h : Sourced (fun _ => none) ops) :
    ∃ b r l, getNbestForTrg (run ops) t n = some (b, r) ∧ (l.map Prod.snd).Nodup ∧
      (∀ s, s ∈ l.map Prod.snd ↔ (getSrcTrgInfo (run ops) s t).isSome) ∧
      (∀ e ∈ l, ∀ cs cst, getSrcInfo (run ops) e.2 = some cs → getSrcTrgInfo (run ops) e.2 t = some cst →
        e.1 = (cst : Int) - cs) ∧
      l.Pairwise (fun a b => b.1 ≤ a.1) ∧
      r = (match n with | none => l | some k => l.take k) := by
  obtain ⟨b, l, hl, ⟨hd, hm⟩, _⟩ := (C302_entries_partial ops h).1 t
  let L := MMap.insAll [] (l.map (fun e => (scoreForTrg e.2.1 e.2.2, e.1)))
  have hres : ∃ r, getNbestForTrg (run ops) t n = some (b, r) ∧ r = (match (motive := Option Nat → Nbest.Table S) n with | none => L | some k => L.take k) := by
    cases n with
    | none => exact ⟨L, by simp [getNbestForTrg, hl, L], rfl⟩
    | some k =>
      refine ⟨L.take k, ?_, rfl⟩
      have hk : 1 ≤ k := by
        rcases Nat.eq_zero_or_pos k with h0 | h0
        · exact absurd (by rw [h0]) hn
        · exact h0
      simp only [getNbestForTrg, hl]
      rw [Nbest.trimTo_eq k hk _ _ (Nat.lt_succ_self _)]
      rfl
  obtain ⟨r, hr, hrl⟩ := hres
  refine ⟨b, r, L, hr, nodup_scores (f := fun p => scoreForTrg p.1 p.2) hd, ?_, ?_, ?_, hrl⟩
  · intro s
    rw [List.mem_map]
    constructor
    · rintro ⟨x, hx, rfl⟩
      obtain ⟨e, he, rfl⟩ := (mem_scores (f := fun p => scoreForTrg p.1 p.2)).1 hx
      simp [((hm e.1 e.2.1 e.2.2).1 he).1]
    · intro ht
      obtain ⟨cst, hcst⟩ := Option.isSome_iff_exists.1 ht
      obtain ⟨cs, hcs⟩ := Option.isSome_iff_exists.1 (covered_run h s t ht)
      exact ⟨(scoreForTrg cs cst, s), (mem_scores (f := fun p => scoreForTrg p.1 p.2)).2
        ⟨(s, cs, cst), (hm s cs cst).2 ⟨hcst, hcs⟩, rfl⟩, rfl⟩
  · intro e he cs cst h1 h2
    obtain ⟨x, hx, rfl⟩ := (mem_scores (f := fun p => scoreForTrg p.1 p.2)).1 he
    obtain ⟨e1, e2⟩ := (hm x.1 x.2.1 x.2.2).1 hx
    dsimp only at h1 h2
    rw [h2] at e1; rw [h1] at e2
    cases e1; cases e2
    rfl
  · exact MMap.desc_insAll List.Pairwise.nil _

/-- Non-vacuity: the best two of three. -/
example : getNbestForTrg (run [.entry 1 "a" 9 9, .entry 2 "a" 7 2, .entry 3 "a" 4 3]) "a" (some 2) =
    some (true, [((0 : Int), 1), ((-1 : Int), 3)]) := by decide +kernel

end Thot.CondTab
