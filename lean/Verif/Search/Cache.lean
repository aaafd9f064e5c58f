import Verif.Search.Prefix
import Verif.Common.AMap

/-!
Property C88: the caches of translation options and scores (`NbestTransCacheData`) never change the result of an expansion.
-/
namespace Thot.Search
open Thot.StrProc (Str)
open Thot.Meta (MD Segm)

/-! ### Model of the functions with caches -/

/-- A table of scores of phrase pairs (`PhrasePairCacheTable`). -/
abbrev ScoreTab := List ((List Str × List Str) × Int)

/-- A list of translation options (`NbestTableNode`). -/
abbrev Options := List (Int × List Str)

/-- `NbestTransCacheData`: options by source segment; by source segment, number of target words and number of gaps (reference); by
source segment, number of target words and "last gap" (prefix); scores of phrase pairs (two tables). The orders of the keys are
total on their fields, so the tables are maps. NbestTransCacheData.h:43-59, PhrNbestTransTableRefKey.cc:34-41,
PhrNbestTransTablePrefKey.cc:34-41. (`cnbLmScores` is used by the scores of the language model only.) -/
structure Caches where
  nb : List ((Nat × Nat) × Options) := []
  ref : List ((Nat × Nat × Nat × Nat) × Options) := []
  pref : List ((Nat × Nat × Nat × Bool) × Options) := []
  sc : ScoreTab := []
  scLast : ScoreTab := []
deriving DecidableEq, Inhabited

/-- `NbestTransCacheData::clear`, called when a new sentence is going to be translated (`clearTempVars`).
NbestTransCacheData.h:62-70, _pbTransModel.h:481, 534, 585, 636, 1083-1101. -/
def Caches.clear (_ : Caches) : Caches := { nb := [], ref := [], pref := [], sc := [], scLast := [] }

/-- `nbestTransScoreCached` and `nbestTransScoreLastCached` (`nbestTransScoreLast` is `nbestTransScore`).
_pbTransModel.h:2378-2381, 2867-2905. -/
def scoreC (M : Model) (t : ScoreTab) (sp tp : List Str) : Int × ScoreTab :=
  match AMap.lk t (sp, tp) with
  | some s => (s, t)
  | none => (M.phrScore sp tp, AMap.put t (sp, tp) (M.phrScore sp tp))

/-- The loops inserting options with their cached scores. _pbTransModel.h:2433-2438, 2582-2590, 2756-2765, 2803-2826. -/
def insertAllC (M : Model) (sp : List Str) : List (List Str) → ScoreTab → Options → Options × ScoreTab
  | [], t, nbt => (nbt, t)
  | o :: os, t, nbt =>
    let r := scoreC M t sp o
    insertAllC M sp os r.2 (MMap.ins r.1 o nbt)

/-- `getNbestTransForSrcPhrase`. _pbTransModel.h:2417-2450. -/
def nbestTransC (M : Model) (t : ScoreTab) (sp : List Str) : Options × ScoreTab :=
  if (M.opts sp).isEmpty then ([], t)
  else
    let r := insertAllC M sp (M.opts sp) t []
    (prune M.W r.1, r.2)

/-- `getNbestTransForSrcPhraseCached`. _pbTransModel.h:2386-2413. -/
def nbestC (M : Model) (I : Input) (c : Caches) (l r : Nat) : Options × Caches :=
  match AMap.lk c.nb (l, r) with
  | some nbt => (nbt, c)
  | none =>
    let x := nbestTransC M c.sc (srcPhrase I.src l r)
    (x.1, { c with sc := x.2, nb := AMap.put c.nb (l, r) x.1 })

/-- `getTransForHypUncovGap`. _pbTransModel.h:2454-2508. -/
def transForGapC (M : Model) (I : Input) (c : Caches) (l r : Nat) : Options × Caches :=
  if Meta.srcPhrAffectedByConstraint I.md (l, r) then
    let trg := Meta.getTransForSrcPhr I.md (l, r)
    if trg.length > 0 then ([(0, trg)], c) else ([], c)
  else if l = r ∧ (unseenWords M I.src).contains (I.src.getD (l - 1) []) then ([(0, [unkWord])], c)
  else nbestC M I c l r

/-- The options computed by `transUncovGapRefNoLastGapCached` when they are not in the table. _pbTransModel.h:2580-2605. -/
def refNewC (M : Model) (I : Input) (c : Caches) (l r n ng : Nat) : Option (Options × Caches) :=
  let sp := srcPhrase I.src l r
  if ng > I.ref.length + 1 then none
  else
    let ws := ((nullWord :: I.ref).take (I.ref.length + 1 - ng)).drop n
    let x := insertAllC M sp ((initials ws).filter fun t => lenOk M.E sp.length t.length) c.sc []
    some (prune M.W x.1, { c with sc := x.2, ref := AMap.put c.ref (l, r, n, ng) (prune M.W x.1) })

/-- `transUncovGapRefNoLastGapCached`. _pbTransModel.h:2538-2609. -/
def transRefNoLastGapC (M : Model) (I : Input) (c : Caches) (d : HypData) (l r : Nat) : Option (Options × Caches) :=
  match AMap.lk c.ref (l, r, d.ntarget.length, gapsAfter M I.src.length d l r) with
  | some nbt => some (nbt, c)
  | none => refNewC M I c l r d.ntarget.length (gapsAfter M I.src.length d l r)

/-- `transUncovGapRefLastGapCached`. _pbTransModel.h:2612-2643. -/
def transRefLastGapC (M : Model) (I : Input) (c : Caches) (d : HypData) (l r : Nat) : Options × Caches :=
  let sp := srcPhrase I.src l r
  let t := (nullWord :: I.ref).drop d.ntarget.length
  if lenOk M.E sp.length t.length then
    let x := scoreC M c.sc sp t
    ([(x.1, t)], { c with sc := x.2 })
  else ([], c)

/-- `getTransForHypUncovGapRef`. _pbTransModel.h:2511-2535. -/
def transRefC (M : Model) (I : Input) (c : Caches) (d : HypData) (l r : Nat) : Option (Options × Caches) :=
  if d.ntarget.length > I.ref.length + 1 then some ([], c)
  else if uncovered I.src.length d ≠ r + 1 - l then transRefNoLastGapC M I c d l r
  else some (transRefLastGapC M I c d l r)

/-- `transUncovGapPrefNoGen`: the scores of the translations longer than the prefix and of the remaining prefix use one of the
tables of scores, those of the shorter translations the other. _pbTransModel.h:2725-2828. -/
def prefNoGenC (M : Model) (I : Input) (c : Caches) (d : HypData) (l r : Nat) : Options × Caches :=
  let sp := srcPhrase I.src l r
  let shorter :=
    if uncovered I.src.length d ≠ r + 1 - l then
      if I.pref.length + 1 > 1 then
        (initials (((nullWord :: I.pref).take I.pref.length).drop d.ntarget.length)).filter fun t =>
          lenOk M.E sp.length t.length
      else []
    else []
  let x := insertAllC M sp (longerThanPref M I d sp) c.scLast []
  let y := insertAllC M sp shorter c.sc x.1
  let z := scoreC M x.2 sp (remPref I d)
  (MMap.ins z.1 (remPref I d) y.1, { c with sc := y.2, scLast := z.2 })

/-- `transUncovGapPrefNoGenCached`. _pbTransModel.h:2680-2722. -/
def transPrefNoGenC (M : Model) (I : Input) (c : Caches) (d : HypData) (l r : Nat) : Options × Caches :=
  match AMap.lk c.pref (l, r, d.ntarget.length, decide (uncovered I.src.length d = r + 1 - l)) with
  | some nbt => (nbt, c)
  | none =>
    let x := prefNoGenC M I c d l r
    (prune M.W x.1, { x.2 with
      pref := AMap.put x.2.pref (l, r, d.ntarget.length, decide (uncovered I.src.length d = r + 1 - l)) (prune M.W x.1) })

/-- `getTransForHypUncovGapPref`. _pbTransModel.h:2658-2676. -/
def transPrefC (M : Model) (I : Input) (c : Caches) (d : HypData) (l r : Nat) : Options × Caches :=
  if d.ntarget.length < I.pref.length + 1 then transPrefNoGenC M I c d l r else transForGapC M I c l r

/-- The translation options of a segment in each mode. -/
def optionsC (m : Mode) (M : Model) (I : Input) (c : Caches) (d : HypData) (l r : Nat) : Option (Options × Caches) :=
  match m with
  | .trans => some (transForGapC M I c l r)
  | .ref => transRefC M I c d l r
  | .ver => some (transForGapC M I c l r)
  | .pref => some (transPrefC M I c d l r)

/-- The options of the segments tried, one after the other. -/
def optionsAllC (m : Mode) (M : Model) (I : Input) (d : HypData) : List Segm → Caches → Option (List (Segm × Options) × Caches)
  | [], c => some ([], c)
  | s :: ss, c =>
    match optionsC m M I c d s.1 s.2 with
    | none => none
    | some x => (optionsAllC m M I d ss x.2).map fun y => ((s, x.1) :: y.1, y.2)

/-- The extensions kept among those of the options of one segment. _pbTransModel.h:886-898, 2060-2065, 2112-2117. -/
def keepC (m : Mode) (I : Input) (ds : List HypData) : Option (List HypData) :=
  match m with
  | .trans => filterM? (keepExt I) ds
  | .ref => some (ds.filter (refTest I))
  | .ver => some (ds.filter (refTest I))
  | .pref => some ds

/-- `expand`, `expand_ref`, `expand_ver` and `expand_prefix` with their caches. _pbTransModel.h:842-1070. -/
def expandC (m : Mode) (M : Model) (I : Input) (c : Caches) (h : Hyp) : Option (List Hyp × Caches) :=
  let ca : Segm → Bool := if m = .trans then Meta.srcPhrAffectedByConstraint I.md else fun _ => false
  match optionsAllC m M I h.data (segmsToTry M ca (extractGaps I.src.length (covered h.data))) c with
  | none => none
  | some x =>
    match keepC m I (x.1.flatMap fun e => e.2.map fun o => extend h.data e.1.1 e.1.2 o.2) with
    | none => none
    | some ds => some (ds.map (incrScore M h), x.2)

/-! ### Specification: the histories of a translation model -/

/-- The caches a model with parameters `M` can have while the sentence of `I` is being translated, after any history: earlier
sentences with other parameters, expansions of any hypotheses, and the options requested by the heuristic
(_pbTransModel.h:1241). -/
inductive Hist : Model → Input → Caches → Prop
  | new {M I} : Hist M I {}
  | sentence {M I M' I' c} : Hist M' I' c → Hist M I c.clear
  | heuristic {M I c l r} : Hist M I c → Hist M I (nbestC M I c l r).2
  | expand {m M I c h hs c'} : Hist M I c → expandC m M I c h = some (hs, c') → Hist M I c'

/-! ### Validity of the caches -/

/-- The options of a reference as a function of the key. -/
def refVal (M : Model) (I : Input) (l r n ng : Nat) : Options :=
  prune M.W (insertAll (M.phrScore (srcPhrase I.src l r))
    ((initials (((nullWord :: I.ref).take (I.ref.length + 1 - ng)).drop n)).filter fun t =>
      lenOk M.E (srcPhrase I.src l r).length t.length) [])

/-- Every entry holds the value that would be computed. -/
structure Valid (M : Model) (I : Input) (c : Caches) : Prop where
  nb : ∀ l r v, AMap.lk c.nb (l, r) = some v → v = nbestTrans M (srcPhrase I.src l r)
  ref : ∀ l r n ng v, AMap.lk c.ref (l, r, n, ng) = some v → ng ≤ I.ref.length + 1 ∧ v = refVal M I l r n ng
  pref : ∀ l r n b v, AMap.lk c.pref (l, r, n, b) = some v → ∀ d : HypData, d.ntarget.length = n →
    decide (uncovered I.src.length d = r + 1 - l) = b → v = prune M.W (transPrefNoGen M I d l r)
  sc : ∀ sp tp s, AMap.lk c.sc (sp, tp) = some s → s = M.phrScore sp tp
  scLast : ∀ sp tp s, AMap.lk c.scLast (sp, tp) = some s → s = M.phrScore sp tp

/-- A table of scores is right. -/
def ScOk (M : Model) (t : ScoreTab) : Prop := ∀ sp tp s, AMap.lk t (sp, tp) = some s → s = M.phrScore sp tp

theorem scoreC_spec {M : Model} {t : ScoreTab} (h : ScOk M t) (sp tp : List Str) :
    (scoreC M t sp tp).1 = M.phrScore sp tp ∧ ScOk M (scoreC M t sp tp).2 := by
  unfold scoreC
  cases hl : AMap.lk t (sp, tp) with
  | some s => exact ⟨h _ _ _ hl, h⟩
  | none =>
    refine ⟨rfl, fun sp' tp' s hs => ?_⟩
    rw [AMap.lk_put] at hs
    split at hs
    · rename_i he
      injection hs with hs
      injection he with h1 h2
      subst h1 h2
      exact hs.symm
    · exact h _ _ _ hs

theorem insertAllC_spec {M : Model} (sp : List Str) : ∀ (os : List (List Str)) {t : ScoreTab} (nbt : Options), ScOk M t →
    (insertAllC M sp os t nbt).1 = insertAll (M.phrScore sp) os nbt ∧ ScOk M (insertAllC M sp os t nbt).2
  | [], _, _, h => ⟨rfl, h⟩
  | o :: os, _, nbt, h => by
    rename_i t
    obtain ⟨h1, h2⟩ := scoreC_spec h sp o
    have := insertAllC_spec sp os (MMap.ins (scoreC M t sp o).1 o nbt) h2
    simp only [insertAllC, insertAll]
    rw [h1] at this ⊢
    exact this

theorem insertAll_append (sc : List Str → Int) : ∀ (a b : List (List Str)) (t : Options),
    insertAll sc (a ++ b) t = insertAll sc b (insertAll sc a t)
  | [], _, _ => rfl
  | _ :: a, b, t => insertAll_append sc a b _

theorem nbestC_spec {M : Model} {I : Input} {c : Caches} (h : Valid M I c) (l r : Nat) :
    (nbestC M I c l r).1 = nbestTrans M (srcPhrase I.src l r) ∧ Valid M I (nbestC M I c l r).2 := by
  unfold nbestC
  cases hl : AMap.lk c.nb (l, r) with
  | some v => exact ⟨h.nb _ _ _ hl, h⟩
  | none =>
    have key : (nbestTransC M c.sc (srcPhrase I.src l r)).1 = nbestTrans M (srcPhrase I.src l r) ∧
        ScOk M (nbestTransC M c.sc (srcPhrase I.src l r)).2 := by
      unfold nbestTransC nbestTrans
      split
      · exact ⟨rfl, h.sc⟩
      · obtain ⟨h1, h2⟩ := insertAllC_spec (srcPhrase I.src l r) (M.opts (srcPhrase I.src l r)) [] (t := c.sc) h.sc
        exact ⟨by dsimp only; rw [h1], h2⟩
    refine ⟨key.1, ⟨fun l' r' v hv => ?_, h.ref, h.pref, key.2, h.scLast⟩⟩
    dsimp only at hv
    rw [AMap.lk_put] at hv
    split at hv
    · rename_i he
      injection he with h1 h2
      injection hv with hv
      subst h1 h2
      rw [← hv, key.1]
    · exact h.nb _ _ _ hv

theorem transForGapC_spec {M : Model} {I : Input} {c : Caches} (h : Valid M I c) (l r : Nat) :
    (transForGapC M I c l r).1 = transForGap M I l r ∧ Valid M I (transForGapC M I c l r).2 := by
  unfold transForGapC transForGap
  split
  · dsimp only
    split
    · exact ⟨rfl, h⟩
    · exact ⟨rfl, h⟩
  · split
    · exact ⟨rfl, h⟩
    · exact nbestC_spec h l r

theorem transRefNoLastGap_eq (M : Model) (I : Input) (d : HypData) (l r : Nat) :
    transRefNoLastGap M I d l r = if gapsAfter M I.src.length d l r > I.ref.length + 1 then none
      else some (refVal M I l r d.ntarget.length (gapsAfter M I.src.length d l r)) := rfl

/-- The options are those of the function without caches and the caches are still valid. -/
def Same (M : Model) (I : Input) (v : Option Options) (x : Option (Options × Caches)) : Prop :=
  match x with
  | none => v = none
  | some y => v = some y.1 ∧ Valid M I y.2

theorem transRefC_spec {M : Model} {I : Input} {c : Caches} (h : Valid M I c) (d : HypData) (l r : Nat) :
    Same M I (transRef M I d l r) (transRefC M I c d l r) := by
  unfold transRefC transRef
  split
  · exact ⟨rfl, h⟩
  · split
    · rw [transRefNoLastGap_eq]
      unfold transRefNoLastGapC
      cases hl : AMap.lk c.ref (l, r, d.ntarget.length, gapsAfter M I.src.length d l r) with
      | some v =>
        obtain ⟨h1, h2⟩ := h.ref _ _ _ _ _ hl
        refine ⟨?_, h⟩
        rw [if_neg (by omega), ← h2]
      | none =>
        dsimp only
        unfold refNewC
        dsimp only
        by_cases hg : gapsAfter M I.src.length d l r > I.ref.length + 1
        · rw [if_pos hg, if_pos hg]
          exact (rfl : (none : Option Options) = none)
        · rw [if_neg hg, if_neg hg]
          obtain ⟨h1, h2⟩ := insertAllC_spec (M := M) (srcPhrase I.src l r)
            ((initials (((nullWord :: I.ref).take (I.ref.length + 1 - gapsAfter M I.src.length d l r)).drop d.ntarget.length)).filter
              fun t => lenOk M.E (srcPhrase I.src l r).length t.length) [] (t := c.sc) h.sc
          refine ⟨by dsimp only; rw [h1]; rfl, ⟨h.nb, fun l' r' n ng v hv => ?_, h.pref, h2, h.scLast⟩⟩
          dsimp only at hv
          rw [AMap.lk_put] at hv
          split at hv
          · rename_i he
            simp only [Prod.mk.injEq] at he
            obtain ⟨e1, e2, e3, e4⟩ := he
            injection hv with hv
            subst e1 e2 e3 e4
            refine ⟨by omega, ?_⟩
            rw [← hv, h1]
            rfl
          · exact h.ref _ _ _ _ _ hv
    · unfold transRefLastGapC transRefLastGap
      dsimp only
      split
      · obtain ⟨h1, h2⟩ := scoreC_spec (M := M) (t := c.sc) h.sc (srcPhrase I.src l r) ((nullWord :: I.ref).drop d.ntarget.length)
        exact ⟨by dsimp only; rw [h1], ⟨h.nb, h.ref, h.pref, h2, h.scLast⟩⟩
      · exact ⟨rfl, h⟩

theorem prefNoGenC_spec {M : Model} {I : Input} {c : Caches} (h : Valid M I c) (d : HypData) (l r : Nat) :
    (prefNoGenC M I c d l r).1 = transPrefNoGen M I d l r ∧ Valid M I (prefNoGenC M I c d l r).2 ∧
      (prefNoGenC M I c d l r).2.pref = c.pref := by
  unfold prefNoGenC transPrefNoGen
  dsimp only
  generalize hsh : (if uncovered I.src.length d ≠ r + 1 - l then
      if I.pref.length + 1 > 1 then
        (initials (((nullWord :: I.pref).take I.pref.length).drop d.ntarget.length)).filter fun t =>
          lenOk M.E (srcPhrase I.src l r).length t.length
      else []
    else []) = shorter
  obtain ⟨h1, h2⟩ := insertAllC_spec (M := M) (srcPhrase I.src l r) (longerThanPref M I d (srcPhrase I.src l r)) []
    (t := c.scLast) h.scLast
  obtain ⟨h3, h4⟩ := insertAllC_spec (M := M) (srcPhrase I.src l r) shorter
    (insertAllC M (srcPhrase I.src l r) (longerThanPref M I d (srcPhrase I.src l r)) c.scLast []).1 (t := c.sc) h.sc
  obtain ⟨h5, h6⟩ := scoreC_spec (M := M) h2 (srcPhrase I.src l r) (remPref I d)
  refine ⟨?_, ⟨h.nb, h.ref, h.pref, h4, h6⟩, rfl⟩
  rw [h5, h3, h1, insertAll_append, insertAll_append]
  rfl

theorem transPrefNoGen_congr {M : Model} {I : Input} {d d' : HypData} {l r : Nat} (h1 : d.ntarget.length = d'.ntarget.length)
    (h2 : decide (uncovered I.src.length d = r + 1 - l) = decide (uncovered I.src.length d' = r + 1 - l)) :
    transPrefNoGen M I d l r = transPrefNoGen M I d' l r := by
  have h2' : (uncovered I.src.length d = r + 1 - l) ↔ (uncovered I.src.length d' = r + 1 - l) := by simpa using h2
  have hr : remPref I d = remPref I d' := by unfold remPref; rw [h1]
  have hl : longerThanPref M I d = longerThanPref M I d' := by funext sp; unfold longerThanPref; rw [hr]
  unfold transPrefNoGen
  dsimp only
  rw [hr, hl, h1]
  by_cases hu : uncovered I.src.length d = r + 1 - l
  · rw [if_neg (by simpa using hu), if_neg (by simpa using h2'.1 hu)]
  · rw [if_pos hu, if_pos (fun h => hu (h2'.2 h))]

theorem transPrefC_spec {M : Model} {I : Input} {c : Caches} (h : Valid M I c) (d : HypData) (l r : Nat) :
    (transPrefC M I c d l r).1 = transPref M I d l r ∧ Valid M I (transPrefC M I c d l r).2 := by
  unfold transPrefC transPref
  split
  · unfold transPrefNoGenC
    cases hl : AMap.lk c.pref (l, r, d.ntarget.length, decide (uncovered I.src.length d = r + 1 - l)) with
    | some v => exact ⟨h.pref _ _ _ _ _ hl d rfl rfl, h⟩
    | none =>
      obtain ⟨h1, h2, h3⟩ := prefNoGenC_spec h d l r
      refine ⟨by dsimp only; rw [h1], ⟨h2.nb, h2.ref, fun l' r' n b v hv d' hd hb => ?_, h2.sc, h2.scLast⟩⟩
      dsimp only at hv
      rw [AMap.lk_put] at hv
      split at hv
      · rename_i he
        simp only [Prod.mk.injEq] at he
        obtain ⟨e1, e2, e3, e4⟩ := he
        injection hv with hv
        subst e1 e2
        rw [← hv, h1, transPrefNoGen_congr (d := d) (d' := d') (by omega) (by rw [hb, e4])]
      · exact h2.pref _ _ _ _ _ hv d' hd hb
  · exact transForGapC_spec h l r

/-- The options in each mode, without caches. -/
def optionsMode (m : Mode) (M : Model) (I : Input) (d : HypData) (l r : Nat) : Option Options :=
  match m with
  | .trans => some (transForGap M I l r)
  | .ref => transRef M I d l r
  | .ver => some (transForGap M I l r)
  | .pref => some (transPref M I d l r)

theorem optionsC_spec {m : Mode} {M : Model} {I : Input} {c : Caches} (h : Valid M I c) (d : HypData) (l r : Nat) :
    Same M I (optionsMode m M I d l r) (optionsC m M I c d l r) := by
  cases m with
  | trans => obtain ⟨h1, h2⟩ := transForGapC_spec h l r; exact ⟨by rw [h1]; rfl, h2⟩
  | ver => obtain ⟨h1, h2⟩ := transForGapC_spec h l r; exact ⟨by rw [h1]; rfl, h2⟩
  | pref => obtain ⟨h1, h2⟩ := transPrefC_spec h d l r; exact ⟨by rw [h1]; rfl, h2⟩
  | ref => exact transRefC_spec h d l r

theorem optionsAllC_spec {m : Mode} {M : Model} {I : Input} (d : HypData) : ∀ (ss : List Segm) {c : Caches}, Valid M I c →
    match optionsAllC m M I d ss c with
    | none => ss.mapM (fun s => (optionsMode m M I d s.1 s.2).map fun o => (s, o)) = none
    | some y => ss.mapM (fun s => (optionsMode m M I d s.1 s.2).map fun o => (s, o)) = some y.1 ∧ Valid M I y.2
  | [], c, h => ⟨rfl, h⟩
  | s :: ss, c, h => by
    have h1 := optionsC_spec (m := m) h d s.1 s.2
    simp only [optionsAllC, List.mapM_cons]
    cases hx : optionsC m M I c d s.1 s.2 with
    | none =>
      rw [hx] at h1
      have h1 : optionsMode m M I d s.1 s.2 = none := h1
      simp [h1]
    | some x =>
      rw [hx] at h1
      obtain ⟨e1, e2⟩ : optionsMode m M I d s.1 s.2 = some x.1 ∧ Valid M I x.2 := h1
      have ih := optionsAllC_spec d ss e2 (m := m)
      rw [e1]
      dsimp only
      cases hy : optionsAllC m M I d ss x.2 with
      | none => rw [hy] at ih; simp [ih]
      | some y =>
        rw [hy] at ih
        obtain ⟨i1, i2⟩ := ih
        refine ⟨?_, i2⟩
        simp [i1]

theorem optionsAll_some (m : Mode) (M : Model) (I : Input) (d : HypData) (f : Segm → Options)
    (hf : ∀ s : Segm, optionsMode m M I d s.1 s.2 = some (f s)) : ∀ ss : List Segm,
    ss.mapM (fun s => (optionsMode m M I d s.1 s.2).map fun o => (s, o)) = some (ss.map fun s => (s, f s))
  | [] => rfl
  | s :: ss => by
    rw [List.mapM_cons, hf s, optionsAll_some m M I d f hf ss]
    rfl

theorem flatten_options (m : Mode) (M : Model) (I : Input) (d : HypData) (p : HypData → Bool)
    (gen : HypData → Nat → Nat → Option (List HypData))
    (hg : ∀ l r, gen d l r = (optionsMode m M I d l r).map fun t => (t.map fun e => extend d l r e.2).filter p) : ∀ ss : List Segm,
    (ss.mapM fun s => gen d s.1 s.2).map List.flatten =
      (ss.mapM (fun s => (optionsMode m M I d s.1 s.2).map fun o => (s, o))).map fun es =>
        (es.flatMap fun e => e.2.map fun o => extend d e.1.1 e.1.2 o.2).filter p
  | [] => rfl
  | s :: ss => by
    have ih := flatten_options m M I d p gen hg ss
    rw [List.mapM_cons, List.mapM_cons, hg]
    cases ho : optionsMode m M I d s.1 s.2 with
    | none => rfl
    | some o =>
      cases h1 : ss.mapM (fun s => gen d s.1 s.2) with
      | none =>
        rw [h1] at ih
        cases h2 : ss.mapM (fun s => (optionsMode m M I d s.1 s.2).map fun o => (s, o)) with
        | none => rfl
        | some es => rw [h2] at ih; cases ih
      | some dss =>
        rw [h1] at ih
        cases h2 : ss.mapM (fun s => (optionsMode m M I d s.1 s.2).map fun o => (s, o)) with
        | none => rw [h2] at ih; cases ih
        | some es =>
          rw [h2] at ih
          have ih : some dss.flatten = some _ := ih
          injection ih with ih
          simp only [Option.map_some, Option.pure_def, Option.bind_eq_bind, Option.bind_some, List.flatten_cons, List.flatMap_cons,
            List.filter_append, ih]

/-- The expansion, from the options of all the segments. -/
def expandFrom (m : Mode) (M : Model) (I : Input) (h : Hyp) (es : List (Segm × Options)) : Option (List Hyp) :=
  (keepC m I (es.flatMap fun e => e.2.map fun o => extend h.data e.1.1 e.1.2 o.2)).map fun ds => ds.map (incrScore M h)

/-- The options of all the segments tried. -/
def allOptions (m : Mode) (M : Model) (I : Input) (h : Hyp) : Option (List (Segm × Options)) :=
  (segmsToTry M (if m = .trans then Meta.srcPhrAffectedByConstraint I.md else fun _ => false)
    (extractGaps I.src.length (covered h.data))).mapM (fun s => (optionsMode m M I h.data s.1 s.2).map fun o => (s, o))

theorem expandWith_eq (m : Mode) (M : Model) (I : Input) (h : Hyp) (p : HypData → Bool)
    (gen : HypData → Nat → Nat → Option (List HypData)) (hm : m ≠ .trans)
    (hg : ∀ l r, gen h.data l r = (optionsMode m M I h.data l r).map fun t => (t.map fun e => extend h.data l r e.2).filter p)
    (hk : ∀ ds, keepC m I ds = some (ds.filter p)) :
    expandWith M I gen h = (allOptions m M I h).bind (expandFrom m M I h) := by
  have key := flatten_options m M I h.data p gen hg (segmsToTry M (fun _ => false) (extractGaps I.src.length (covered h.data)))
  unfold expandWith allOptions expandFrom
  rw [if_neg hm]
  dsimp only
  revert key
  generalize segmsToTry M (fun _ => false) (extractGaps I.src.length (covered h.data)) = ss
  intro key
  cases h1 : ss.mapM (fun s => gen h.data s.1 s.2) with
  | none =>
    rw [h1] at key
    cases h2 : ss.mapM (fun s => (optionsMode m M I h.data s.1 s.2).map fun o => (s, o)) with
    | none => rfl
    | some es => rw [h2] at key; cases key
  | some dss =>
    rw [h1] at key
    cases h2 : ss.mapM (fun s => (optionsMode m M I h.data s.1 s.2).map fun o => (s, o)) with
    | none => rw [h2] at key; cases key
    | some es =>
      rw [h2] at key
      have key : some dss.flatten = some _ := key
      injection key with key
      simp only [Option.bind_some, hk, key, Option.map_some]

theorem filter_all {α : Type} (l : List α) : l.filter (fun _ => true) = l :=
  List.filter_eq_self.2 fun _ _ => rfl

theorem expandMode_eq (m : Mode) (M : Model) (I : Input) (h : Hyp) :
    expandMode m M I h = (allOptions m M I h).bind (expandFrom m M I h) := by
  cases m with
  | trans =>
    unfold allOptions expandFrom
    rw [optionsAll_some .trans M I h.data (fun s => transForGap M I s.1 s.2) (fun _ => rfl)]
    simp only [expandMode, expand, keepC, hypDataForGap, List.flatMap_map, if_pos, Option.bind_some]
    cases filterM? (keepExt I) _ <;> rfl
  | ver =>
    exact expandWith_eq .ver M I h (refTest I) (fun d l r => some (hypDataVer M I d l r)) (by simp) (fun _ _ => rfl) (fun _ => rfl)
  | pref =>
    refine expandWith_eq .pref M I h (fun _ => true) (fun d l r => some (hypDataPref M I d l r)) (by simp) (fun l r => ?_) (fun ds => ?_)
    · simp only [optionsMode, hypDataPref, Option.map_some, filter_all]
    · simp only [keepC, filter_all]
  | ref => exact expandWith_eq .ref M I h (refTest I) (hypDataRef M I) (by simp) (fun _ _ => rfl) (fun _ => rfl)

theorem expandC_spec {m : Mode} {M : Model} {I : Input} {c : Caches} (hv : Valid M I c) (h : Hyp) :
    match expandC m M I c h with
    | none => expandMode m M I h = none
    | some y => expandMode m M I h = some y.1 ∧ Valid M I y.2 := by
  have key := optionsAllC_spec (m := m) h.data (segmsToTry M (if m = .trans then Meta.srcPhrAffectedByConstraint I.md else fun _ => false)
    (extractGaps I.src.length (covered h.data))) hv
  rw [expandMode_eq]
  unfold expandC allOptions expandFrom
  dsimp only
  cases hx : optionsAllC m M I h.data (segmsToTry M (if m = .trans then Meta.srcPhrAffectedByConstraint I.md else fun _ => false)
      (extractGaps I.src.length (covered h.data))) c with
  | none =>
    rw [hx] at key
    dsimp only at key ⊢
    rw [key]; rfl
  | some x =>
    rw [hx] at key
    dsimp only at key ⊢
    rw [key.1, Option.bind_some]
    cases hk : keepC m I (x.1.flatMap fun e => e.2.map fun o => extend h.data e.1.1 e.1.2 o.2) with
    | none => rfl
    | some ds => exact ⟨rfl, key.2⟩

theorem valid_empty (M : Model) (I : Input) : Valid M I {} :=
  ⟨fun _ _ _ h => by simp [AMap.lk] at h, fun _ _ _ _ _ h => by simp [AMap.lk] at h, fun _ _ _ _ _ h => by simp [AMap.lk] at h,
    fun _ _ _ h => by simp [AMap.lk] at h, fun _ _ _ h => by simp [AMap.lk] at h⟩

theorem valid_hist {M : Model} {I : Input} {c : Caches} (h : Hist M I c) : Valid M I c := by
  induction h with
  | new => exact valid_empty _ _
  | sentence _ _ => exact valid_empty _ _
  | heuristic _ ih => exact (nbestC_spec ih _ _).2
  | expand _ he ih =>
    have := expandC_spec ih (m := ‹Mode›) ‹Hyp›
    rw [he] at this
    exact this.2

/-! ### C88 -/

/-- After any history, an expansion with caches gives exactly the hypotheses, scores and order of the expansion that computes
everything anew, in all the modes. -/
theorem C88_expand {M : Model} {I : Input} {c : Caches} (hc : Hist M I c) (m : Mode) (h : Hyp) :
    (expandC m M I c h).map Prod.fst = expandMode m M I h := by
  have := expandC_spec (m := m) (valid_hist hc) h
  cases hx : expandC m M I c h with
  | none => rw [hx] at this; exact this.symm
  | some y => rw [hx] at this; exact this.1.symm

/-- The same for the options requested by the heuristic. -/
theorem C88_options {M : Model} {I : Input} {c : Caches} (hc : Hist M I c) (l r : Nat) :
    (nbestC M I c l r).1 = nbestTrans M (srcPhrase I.src l r) :=
  (nbestC_spec (valid_hist hc) l r).1

/-- The sentence `a b a` with the prefix `x y`. -/
def exKcInput : Input where
  src := ["a".toList, "b".toList, "a".toList]
  md := ⟨["a".toList, "b".toList, "a".toList], []⟩
  pref := ["x".toList, "y".toList]

/-- A history after which the tables for prefixes, segments and scores are in use: the null hypothesis has been expanded with a
prefix, then without it, and now the second expansion of the null hypothesis is answered from the tables only. -/
example : ∃ c, Hist exModel exKcInput c ∧ 3 ≤ c.pref.length ∧ 3 ≤ c.nb.length ∧ 2 ≤ c.sc.length ∧ 2 ≤ c.scLast.length ∧
    (expandC .pref exModel exKcInput c ⟨0, nullData⟩).map Prod.snd = some c ∧
    3 ≤ ((expandC .pref exModel exKcInput c ⟨0, nullData⟩).getD default).1.length := by
  have h1 := Hist.expand (m := .pref) (M := exModel) (I := exKcInput) (c := {}) (h := ⟨0, nullData⟩)
    (hs := ((expandC .pref exModel exKcInput {} ⟨0, nullData⟩).getD default).1)
    (c' := ((expandC .pref exModel exKcInput {} ⟨0, nullData⟩).getD default).2) .new (by decide +kernel)
  have h2 := Hist.expand (m := .trans) (h := ⟨0, nullData⟩)
    (hs := ((expandC .trans exModel exKcInput ((expandC .pref exModel exKcInput {} ⟨0, nullData⟩).getD default).2 ⟨0, nullData⟩).getD default).1)
    (c' := ((expandC .trans exModel exKcInput ((expandC .pref exModel exKcInput {} ⟨0, nullData⟩).getD default).2 ⟨0, nullData⟩).getD default).2)
    h1 (by decide +kernel)
  exact ⟨_, h2, by decide +kernel, by decide +kernel, by decide +kernel, by decide +kernel, by decide +kernel, by decide +kernel⟩

end Thot.Search
