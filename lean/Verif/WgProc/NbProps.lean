import Verif.WgProc.CorrProps
import Verif.WordGraph.UsefulProps

/-! # C138: the list of corrections is the list of the best candidates -/

namespace Thot.WgProc

open Thot.WordGraph (WG Arc small Live Path Allowed Topo WF FinalOk)

/-! ## Specification -/

/-- The state is an end of an arc of the graph. -/
def touched (g : WG) (s : Nat) : Bool :=
  (List.range g.arcs.length).any fun i =>
    g.pruned[i]? == some false && ((g.arcs[i]?.map Arc.pred) == some s || (g.arcs[i]?.map Arc.succ) == some s)

/-- The scores of the ways to go on from the state `s` with a word compatible with the rejected ones: for each outgoing arc,
its score plus the rest score of the state it leads to. -/
def goOn (g : WG) (rest : List Score) (rej : List (Str × Str)) (s : Nat) : List Score :=
  (List.range g.arcs.length).filterMap fun i =>
    match g.arcs[i]? with
    | none => none
    | some a =>
      if a.pred = s ∧ g.pruned[i]? = some false ∧ wordOk (a.words.headD []) rej = true then some (a.score + rest.getD a.succ 0)
      else none

/-- The score of the best way to go on from the state `s`; without rejected words it is the rest score of the state, otherwise
the best of `goOn`, if it is above the smallest score. -/
def future (g : WG) (rest : List Score) (rej : List (Str × Str)) (s : Nat) : Option Score :=
  if rej = [] then some (rest.getD s 0)
  else if ((goOn g rest rej s).foldl max small) = small then none else some ((goOn g rest rej s).foldl max small)

/-- The scores of the candidates that stop at a state: best score of the state for the whole prefix plus that of the best way
to go on. -/
def stateCands (g : WG) (P : Par) (rej : List (Str × Str)) (st : PS) : List Score :=
  ((List.range g.states.length).filter (touched g)).filterMap fun s =>
    (future g st.rest rej s).map fun r => (st.best s).getLastD 0 + P.wgW * r

/-- The scores of the candidates that stop inside an arc, after its word `w` (not the last one): score of the graph for the
predecessor state, score of the error correcting model for the word and rest score of the predecessor state. -/
def arcCands (g : WG) (P : Par) (rej : List (Str × Str)) (st : PS) : List Score :=
  (List.range g.arcs.length).flatMap fun i =>
    match g.arcs[i]? with
    | none => []
    | some a =>
      if g.pruned[i]? = some false then
        ((List.range (a.words.length - 1)).filter fun w => wordOk (a.words.getD (w + 1) []) rej).map fun w =>
          P.wgW * st.wgS a.pred + P.ecmW * (-(((st.esiA i).getD w ⟨[], []⟩).scr.getLastD 0)) + P.wgW * st.rest.getD a.pred 0
      else []

/-! ## Lemmas -/

section keys

variable {A : Type}

/-- Keep the score only. -/
def key (x : Score × A) : Score × Unit := (x.1, ())

theorem nbInsert_key (x : Score × A) (l : List (Score × A)) : (nbInsert x l).map key = nbInsert (key x) (l.map key) := by
  induction l with
  | nil => rfl
  | cons y l ih =>
    simp only [nbInsert, List.map_cons]
    by_cases h : y.1 < x.1
    · rw [if_pos h, if_pos (show (key y).1 < (key x).1 from h)]; rfl
    · rw [if_neg h, if_neg (show ¬ (key y).1 < (key x).1 from h)]; simp [ih]

theorem sortNb_key : ∀ (l nb : List (Score × A)), (sortNb l nb).map key = sortNb (l.map key) (nb.map key) := by
  intro l
  induction l with
  | nil => intro nb; rfl
  | cons x l ih => intro nb; exact (ih (nbInsert x nb)).trans (by rw [nbInsert_key]; rfl)

theorem nbAdd_key (n : Nat) (x : Score × A) (l : List (Score × A)) : (nbAdd n x l).map key = nbAdd n (key x) (l.map key) := by
  unfold nbAdd
  rw [← nbInsert_key, List.length_map]
  split <;> simp

theorem foldl_nbAdd_key (n : Nat) : ∀ (l nb : List (Score × A)),
    (l.foldl (fun nb x => nbAdd n x nb) nb).map key = (l.map key).foldl (fun nb x => nbAdd n x nb) (nb.map key) := by
  intro l
  induction l with
  | nil => intro nb; rfl
  | cons x l ih => intro nb; rw [List.foldl_cons, ih, nbAdd_key]; rfl

theorem nbCorr_key {n : Nat} {f : A → Option (List Str)} : ∀ {l : List (Score × A)} {nb r : List (Score × List Str)},
    nbCorr n f l nb = some r → r.map key = (l.map key).foldl (fun nb x => nbAdd n x nb) (nb.map key) := by
  intro l
  induction l with
  | nil => intro nb r h; simp only [nbCorr, Option.some.injEq] at h; subst h; rfl
  | cons x l ih =>
    intro nb r h
    unfold nbCorr at h
    cases hf : f x.2 with
    | none => simp [hf] at h
    | some c =>
      simp only [hf] at h
      rw [ih h, nbAdd_key]
      rfl

end keys

theorem desc_unique {l l' : List (Score × Unit)} (h : Desc l) (h' : Desc l') (hp : l.Perm l') : l = l' := by
  refine hp.eq_of_pairwise ?_ h h'
  intro a b _ _ h1 h2
  exact Prod.ext (Rat.le_antisymm h2 h1) rfl

theorem desc_take {A : Type} {l : List (Score × A)} (n : Nat) (h : Desc l) : Desc (l.take n) :=
  List.Pairwise.sublist (List.take_sublist n l) h

theorem desc_nil {A : Type} : Desc ([] : List (Score × A)) := List.Pairwise.nil

theorem sortNb_comm {X Y : List (Score × Unit)} (hX : Desc X) (hY : Desc Y) : sortNb X Y = sortNb Y X :=
  desc_unique (sortNb_desc X Y hY) (sortNb_desc Y X hX)
    ((sortNb_perm X Y).trans (List.perm_append_comm.trans (sortNb_perm Y X).symm))

theorem merge_best (n : Nat) (S A : List (Score × Unit)) :
    (sortNb ((sortNb A []).take n) ((sortNb ((sortNb S []).take n) []).take n)).take n = (sortNb (S ++ A) []).take n := by
  have dS := sortNb_desc S [] desc_nil
  have dA := sortNb_desc A [] desc_nil
  have e1 : sortNb ((sortNb S []).take n) [] = (sortNb S []).take n :=
    desc_unique (sortNb_desc _ _ desc_nil) (desc_take n dS) (by simpa using sortNb_perm ((sortNb S []).take n) [])
  rw [e1, List.take_take, Nat.min_self, sortNb_comm (desc_take n dA) (desc_take n dS), take_sortNb,
    sortNb_comm (desc_take n dS) dA, take_sortNb]
  congr 1
  refine desc_unique (sortNb_desc _ _ dS) (sortNb_desc _ _ desc_nil) ?_
  refine (sortNb_perm _ _).trans (List.Perm.trans ?_ (sortNb_perm _ _).symm)
  have h1 : (sortNb A []).Perm A := by simpa using sortNb_perm A []
  have h2 : (sortNb S []).Perm S := by simpa using sortNb_perm S []
  simpa using (h1.append h2).trans List.perm_append_comm

theorem bestSucc_spec {rest : List Score} {rej : List (Str × Str)} : ∀ (as : List Arc) (b v : Score),
    bestSucc rest rej as b = some v →
      v = ((as.filter fun a => wordOk (a.words.headD []) rej).map fun a => a.score + rest.getD a.succ 0).foldl max b := by
  intro as
  induction as with
  | nil => intro b v h; simp only [bestSucc, Option.some.injEq] at h; exact h.symm
  | cons a l ih =>
    intro b v h
    unfold bestSucc at h
    cases hw : a.words.head? with
    | none => simp [hw] at h
    | some w =>
      have hh : a.words.headD [] = w := by rw [List.headD_eq_head?_getD, hw]; rfl
      simp only [hw] at h
      split at h
      · rename_i hk
        cases hr : rest[a.succ]? with
        | none => simp [hr] at h
        | some x =>
          simp only [hr] at h
          rw [ih _ _ h, List.filter_cons_of_pos (by rw [hh]; exact hk), List.map_cons, List.foldl_cons]
          congr 1
          rw [List.getD_eq_getElem?_getD, hr, Option.getD_some]
          by_cases hb : b < a.score + x
          · rw [if_pos hb]; grind
          · rw [if_neg hb]; grind
      · rename_i hk
        rw [ih _ _ h, List.filter_cons_of_neg (by rw [hh]; exact hk)]

theorem arcsOf_spec {g : WG} : ∀ (ids : List Nat) (as : List Arc), arcsOf g ids = some as →
    ids.filterMap (fun i => g.arcs[i]?) = as := by
  intro ids
  induction ids with
  | nil => intro as h; simp only [arcsOf, Option.some.injEq] at h; subst h; rfl
  | cons i l ih =>
    intro as h
    unfold arcsOf at h
    cases ha : g.arcs[i]? with
    | none => simp [ha] at h
    | some a =>
      cases hr : arcsOf g l with
      | none => simp [ha, hr] at h
      | some r =>
        simp only [ha, hr, Option.some.injEq] at h
        subst h
        simp [ha, ih r hr]

theorem filterMap_filter_map {A B C : Type} (f : A → Option B) (p : A → Bool) (q : B → Bool) (h : B → C) (l : List A) :
    (((l.filter p).filterMap f).filter q).map h =
      l.filterMap fun x => match f x with | none => none | some b => if p x = true ∧ q b = true then some (h b) else none := by
  induction l with
  | nil => rfl
  | cons x l ih =>
    by_cases hp : p x = true
    · rw [List.filter_cons_of_pos hp]
      cases hf : f x with
      | none => simp only [List.filterMap_cons, hf]; exact ih
      | some b =>
        simp only [List.filterMap_cons, hf]
        by_cases hq : q b = true
        · simp [hq, hp, ih]
        · simp [hq, ih]
    · rw [List.filter_cons_of_neg hp, ih]
      simp only [List.filterMap_cons]
      cases hf : f x <;> simp [hp]

theorem stateRest_spec {g : WG} (hw : WF g) {rest : List Score} {rej : List (Str × Str)} {s : Nat} {o : Option Score}
    (h : stateRest g rest rej s = some o) : o = future g rest rej s := by
  unfold stateRest at h
  cases hr : rest[s]? with
  | none => simp [hr] at h
  | some r =>
    simp only [hr] at h
    cases rej with
    | nil =>
      simp only [List.isEmpty_nil, if_true, Option.some.injEq] at h
      subst h
      simp [future, List.getD_eq_getElem?_getD, hr]
    | cons x l =>
      simp only [List.isEmpty_cons, Bool.false_eq_true, if_false, WordGraph.C61_arcIdsToSucc hw, Option.bind_some] at h
      cases ha : arcsOf g ((List.range g.arcs.length).filter fun i =>
        (g.arcs[i]?.map Arc.pred) == some s && g.pruned[i]? == some false) with
      | none => simp [ha] at h
      | some as =>
        simp only [ha] at h
        cases hb : bestSucc rest (x :: l) as small with
        | none => simp [hb] at h
        | some b =>
          simp only [hb, Option.some.injEq] at h
          have h1 := bestSucc_spec as small b hb
          have h2 : ((as.filter fun a => wordOk (a.words.headD []) (x :: l)).map fun a => a.score + rest.getD a.succ 0) =
              goOn g rest (x :: l) s := by
            rw [← arcsOf_spec _ _ ha, filterMap_filter_map]
            unfold goOn
            congr 1
            funext i
            cases hai : g.arcs[i]? with
            | none => rfl
            | some a => simp [and_assoc]
          rw [h2] at h1
          unfold future
          rw [if_neg (List.cons_ne_nil x l), ← h1]
          exact h.symm

theorem nbStates_spec {g : WG} (hw : WF g) {P : Par} {n : Nat} {rej : List (Str × Str)} {st : PS} :
    ∀ (l : List Nat) {nb r : List (Score × Nat)}, nbStates g P n rej st l nb = some r →
      r.map key = ((l.filterMap fun s => (future g st.rest rej s).map fun r => (st.best s).getLastD 0 + P.wgW * r).map
        fun x => (x, ())).foldl (fun nb x => nbAdd n x nb) (nb.map key) := by
  intro l
  induction l with
  | nil => intro nb r h; simp only [nbStates, Option.some.injEq] at h; subst h; rfl
  | cons s l ih =>
    intro nb r h
    unfold nbStates at h
    cases hs : stateRest g st.rest rej s with
    | none => simp [hs] at h
    | some o =>
      have ho := stateRest_spec hw hs
      cases o with
      | none => simp only [hs] at h; rw [ih h, List.filterMap_cons, ← ho]; rfl
      | some x =>
        simp only [hs] at h
        cases hb : (st.best s).getLast? with
        | none => simp [hb] at h
        | some b =>
          simp only [hb] at h
          rw [ih h, List.filterMap_cons, ← ho, nbAdd_key]
          simp [List.getLastD_eq_getLast?, hb, key]

theorem subWords_spec {P : Par} {n : Nat} {rej : List (Str × Str)} {st : PS} {id : Nat} {a : Arc} :
    ∀ (l : List Nat) {nb r : List (Score × Nat × Nat)}, subWords P n rej st id a l nb = some r →
      r.map key = (((l.filter fun w => wordOk (a.words.getD (w + 1) []) rej).map fun w =>
        P.wgW * st.wgS a.pred + P.ecmW * (-(((st.esiA id).getD w ⟨[], []⟩).scr.getLastD 0)) + P.wgW * st.rest.getD a.pred 0).map
          fun x => (x, ())).foldl (fun nb x => nbAdd n x nb) (nb.map key) := by
  intro l
  induction l with
  | nil => intro nb r h; simp only [subWords, Option.some.injEq] at h; subst h; rfl
  | cons w l ih =>
    intro nb r h
    unfold subWords at h
    cases hw : a.words[w + 1]? with
    | none => simp [hw] at h
    | some nw =>
      have hh : a.words.getD (w + 1) [] = nw := by rw [List.getD_eq_getElem?_getD, hw]; rfl
      simp only [hw] at h
      have hk : (!rej.isEmpty && !wordOk nw rej) = true ↔ wordOk nw rej = false := by
        cases rej with
        | nil => simp [wordOk]
        | cons x l => simp
      split at h
      · rename_i hc
        rw [ih h, List.filter_cons_of_neg (by rw [hh, hk.1 hc]; simp)]
      · rename_i hc
        have hok : wordOk nw rej = true := by
          cases hx : wordOk nw rej with
          | true => rfl
          | false => exact absurd (hk.2 hx) hc
        split at h
        · rename_i c x hc' hx
          cases he : (st.esiA id)[w]? with
          | none => simp [he] at hc'
          | some e =>
            simp only [he, Option.bind_some] at hc'
            rw [ih h, List.filter_cons_of_pos (by rw [hh]; exact hok), nbAdd_key]
            simp [List.getLastD_eq_getLast?, List.getD_eq_getElem?_getD, he, hx, hc', key]
        · cases h

theorem nbSubStates_spec {g : WG} {P : Par} {n : Nat} {rej : List (Str × Str)} {st : PS} :
    ∀ (l : List Nat) {nb r : List (Score × Nat × Nat)}, nbSubStates g P n rej st l nb = some r →
      r.map key = ((l.flatMap fun i => match g.arcs[i]? with
        | none => []
        | some a =>
          if g.pruned[i]? = some false then
            ((List.range (a.words.length - 1)).filter fun w => wordOk (a.words.getD (w + 1) []) rej).map fun w =>
              P.wgW * st.wgS a.pred + P.ecmW * (-(((st.esiA i).getD w ⟨[], []⟩).scr.getLastD 0)) + P.wgW * st.rest.getD a.pred 0
          else []).map fun x => (x, ())).foldl (fun nb x => nbAdd n x nb) (nb.map key) := by
  intro l
  induction l with
  | nil => intro nb r h; simp only [nbSubStates, Option.some.injEq] at h; subst h; rfl
  | cons i l ih =>
    intro nb r h
    unfold nbSubStates at h
    cases ha : g.arcs[i]? with
    | none => simp [ha] at h
    | some a =>
      cases hb : g.pruned[i]? with
      | none => simp [ha, hb] at h
      | some b =>
        simp only [ha, hb] at h
        cases b with
        | true =>
          simp only [if_true] at h
          rw [ih h, List.flatMap_cons]
          simp [ha, hb]
        | false =>
          cases hs : subWords P n rej st i a (List.range (a.words.length - 1)) nb with
          | none => simp [hs] at h
          | some nb1 =>
            simp only [Bool.false_eq_true, if_false, hs] at h
            rw [ih h, subWords_spec _ hs, List.flatMap_cons, List.map_append, List.foldl_append]
            simp only [ha, hb, if_true]

theorem nodup_setInsert {x : Nat} {l : List Nat} (h : l.Pairwise (· < ·)) : (WordGraph.setInsert x l).Pairwise (· < ·) := by
  induction l with
  | nil => simp [WordGraph.setInsert]
  | cons y l ih =>
    have h' := List.pairwise_cons.1 h
    unfold WordGraph.setInsert
    split
    · refine List.pairwise_cons.2 ⟨fun z hz => ?_, h⟩
      rcases List.mem_cons.1 hz with rfl | hz
      · assumption
      · have := h'.1 z hz; omega
    · split
      · exact h
      · refine List.pairwise_cons.2 ⟨fun z hz => ?_, ih h'.2⟩
        rcases (WordGraph.mem_setInsert ..).1 hz with rfl | hz
        · omega
        · exact h'.1 z hz

theorem involved_spec {g : WG} : ∀ (l : List Nat) {s r : List Nat}, involved g l s = some r → s.Pairwise (· < ·) →
    r.Pairwise (· < ·) ∧ ∀ x, x ∈ r ↔ x ∈ s ∨ l.any (fun i => g.pruned[i]? == some false &&
      ((g.arcs[i]?.map Arc.pred) == some x || (g.arcs[i]?.map Arc.succ) == some x)) = true := by
  intro l
  induction l with
  | nil => intro s r h hs; simp only [involved, Option.some.injEq] at h; subst h; exact ⟨hs, by simp⟩
  | cons i l ih =>
    intro s r h hs
    unfold involved at h
    cases ha : g.arcs[i]? with
    | none => simp [ha] at h
    | some a =>
      cases hb : g.pruned[i]? with
      | none => simp [ha, hb] at h
      | some b =>
        simp only [ha, hb] at h
        have h1 := ih h (by
          split
          · exact hs
          · exact nodup_setInsert (nodup_setInsert hs))
        refine ⟨h1.1, fun x => ?_⟩
        rw [h1.2 x, List.any_cons, Bool.or_eq_true]
        cases b
        · simp only [Bool.false_eq_true, if_false, WordGraph.mem_setInsert, ha, hb, Option.map_some, Bool.and_eq_true,
            beq_self_eq_true, true_and, Bool.or_eq_true, beq_iff_eq, Option.some.injEq]
          constructor
          · rintro ((h | h | h) | h)
            · exact Or.inr (Or.inl (Or.inr h.symm))
            · exact Or.inr (Or.inl (Or.inl h.symm))
            · exact Or.inl h
            · exact Or.inr (Or.inr h)
          · rintro (h | (h | h) | h)
            · exact Or.inl (Or.inr (Or.inr h))
            · exact Or.inl (Or.inr (Or.inl h.symm))
            · exact Or.inl (Or.inl h.symm)
            · exact Or.inr h
        · simp [hb]

theorem involved_perm {g : WG} (hw : WF g) {inv : List Nat} (h : involved g (List.range g.arcs.length) [] = some inv) :
    inv.Perm ((List.range g.states.length).filter (touched g)) := by
  obtain ⟨h1, h2⟩ := involved_spec _ h List.Pairwise.nil
  refine (List.perm_ext_iff_of_nodup (h1.imp fun h => Nat.ne_of_lt h) (List.nodup_range.filter _)).2 fun x => ?_
  rw [h2 x, List.mem_filter, List.mem_range]
  simp only [List.not_mem_nil, false_or, touched]
  refine ⟨fun h => ⟨?_, h⟩, fun h => h.2⟩
  obtain ⟨i, hi, hx⟩ := List.any_eq_true.1 h
  simp only [Bool.and_eq_true, Bool.or_eq_true, beq_iff_eq] at hx
  cases ha : g.arcs[i]? with
  | none => simp [ha] at hx
  | some a =>
    simp only [ha, Option.map_some, Option.some.injEq] at hx
    rcases hx.2 with rfl | rfl
    · exact hw.pred i a ha
    · exact hw.succ i a ha

/-! ## C138 -/

/-- **C138.** The scores of the suggestions are the `n` greatest ones among those of all candidates (the states of the graph
and the positions inside its arcs), in decreasing order; all of them if there are less than `n`. -/
theorem C138_best_candidates {g : WG} (hw : WF g) {P : Par} {st : Option PS} {p : Str} {n : Nat} {rej : List (Str × Str)}
    {r : List (Score × List Str)} {st' : PS} (h : correct g P p n rej st = some (r, st')) :
    ∃ sorted : List Score, sorted.Perm (stateCands g P rej st' ++ arcCands g P rej st') ∧
      sorted.Pairwise (fun a b => b ≤ a) ∧ r.map Prod.fst = sorted.take n := by
  obtain ⟨inv, q, hinv, hq, hcor⟩ := correct_parts h
  unfold corrections at hcor
  simp only [Option.bind_eq_bind, Option.bind_eq_some_iff] at hcor
  obtain ⟨hs, h1, hss, h2, nb, h3, h4⟩ := hcor
  obtain ⟨S, hS⟩ : ∃ S, S = (inv.filterMap fun s => (future g st'.rest rej s).map fun r =>
    (st'.best s).getLastD 0 + P.wgW * r).map (fun x => (x, ())) := ⟨_, rfl⟩
  obtain ⟨A, hA⟩ : ∃ A, A = (arcCands g P rej st').map (fun x => (x, ())) := ⟨_, rfl⟩
  have e1 := nbStates_spec hw inv h1
  have e2 := nbSubStates_spec _ h2
  rw [← hS, List.map_nil, foldl_nbAdd n _ _ (Nat.zero_le _)] at e1
  change hss.map key = ((arcCands g P rej st').map fun x => (x, ())).foldl (fun nb x => nbAdd n x nb) [] at e2
  rw [← hA, foldl_nbAdd n _ _ (Nat.zero_le _)] at e2
  have e3 := nbCorr_key h3
  rw [e1, List.map_nil, foldl_nbAdd n _ _ (Nat.zero_le _)] at e3
  have e4 := nbCorr_key h4
  have hlen : (nb.map key).length ≤ n := by rw [e3, List.length_take]; omega
  rw [foldl_nbAdd n _ _ hlen, e2, e3, merge_best] at e4
  refine ⟨(sortNb (S ++ A) []).map Prod.fst, ?_, ?_, ?_⟩
  · have hp := (sortNb_perm (S ++ A) []).map Prod.fst
    refine hp.trans ?_
    rw [List.append_nil, List.map_append, hS, hA]
    simp only [List.map_map, Function.comp_def, List.map_id']
    refine List.Perm.append_right _ ?_
    exact (involved_perm hw hinv).filterMap _
  · rw [List.pairwise_map]; exact sortNb_desc _ _ desc_nil
  · have := congrArg (List.map Prod.fst) e4
    rw [List.map_map, List.map_take] at this
    exact this

end Thot.WgProc
