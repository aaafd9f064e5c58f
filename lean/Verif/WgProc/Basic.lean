import Verif.WgProc.Model
import Verif.WordGraph.PrevProps
import Verif.WordGraph.BuildProps
import Verif.EditDist.WordProps
import Verif.StrProc.Props

/-! Lemmas about n-best lists, best suffixes and the predecessors stored by the processor. -/

namespace Thot.WgProc

open Thot.WordGraph (WG Arc small Live Path Allowed Topo WF FinalOk)

/-! ## N-best lists -/

section nb

variable {A : Type}

theorem mem_nbInsert {x y : Score × A} {l : List (Score × A)} : y ∈ nbInsert x l ↔ y = x ∨ y ∈ l := by
  induction l with
  | nil => simp [nbInsert]
  | cons z l ih => unfold nbInsert; split <;> simp [ih] <;> grind

theorem perm_nbInsert (x : Score × A) (l : List (Score × A)) : (nbInsert x l).Perm (x :: l) := by
  induction l with
  | nil => exact List.Perm.refl _
  | cons z l ih =>
    unfold nbInsert; split
    · exact List.Perm.refl _
    · exact (ih.cons z).trans (List.Perm.swap ..)

theorem length_nbInsert (x : Score × A) (l : List (Score × A)) : (nbInsert x l).length = l.length + 1 := by
  rw [(perm_nbInsert x l).length_eq]; rfl

/-- Sorted by decreasing score. -/
def Desc (l : List (Score × A)) : Prop := l.Pairwise fun a b => b.1 ≤ a.1

theorem desc_nbInsert {x : Score × A} {l : List (Score × A)} (h : Desc l) : Desc (nbInsert x l) := by
  induction l with
  | nil => simp [nbInsert, Desc]
  | cons z l ih =>
    have h' := List.pairwise_cons.1 h
    unfold nbInsert; split
    · rename_i hz
      refine List.pairwise_cons.2 ⟨fun y hy => ?_, h⟩
      rcases List.mem_cons.1 hy with rfl | hy
      · grind
      · have := h'.1 y hy; grind
    · refine List.pairwise_cons.2 ⟨fun y hy => ?_, ih h'.2⟩
      rcases mem_nbInsert.1 hy with rfl | hy
      · grind
      · exact h'.1 y hy

theorem take_nbInsert (x : Score × A) : ∀ (n : Nat) (l : List (Score × A)),
    (nbInsert x (l.take n)).take n = (nbInsert x l).take n := by
  intro n
  induction n with
  | zero => simp
  | succ n ih =>
    intro l
    cases l with
    | nil => simp
    | cons z l =>
      simp only [List.take_succ_cons, nbInsert]
      split
      · simp only [List.take_succ_cons, List.cons.injEq, true_and]
        cases n with
        | zero => simp
        | succ n => simp only [List.take_succ_cons, List.cons.injEq, true_and, List.take_take]; congr 1; omega
      · simp only [List.take_succ_cons, ih]

theorem nbAdd_eq (n : Nat) (x : Score × A) (l : List (Score × A)) (h : l.length ≤ n) :
    nbAdd n x l = (nbInsert x l).take n := by
  have hl := length_nbInsert x l
  unfold nbAdd
  split
  · rw [List.dropLast_eq_take]; congr 1; omega
  · rw [List.take_of_length_le (by omega)]

theorem length_nbAdd (n : Nat) (x : Score × A) (l : List (Score × A)) (h : l.length ≤ n) : (nbAdd n x l).length ≤ n := by
  rw [nbAdd_eq n x l h]; simp; omega

theorem mem_nbAdd {n : Nat} {x y : Score × A} {l : List (Score × A)} (h : y ∈ nbAdd n x l) : y = x ∨ y ∈ l := by
  unfold nbAdd at h
  split at h
  · exact mem_nbInsert.1 ((List.dropLast_sublist _).mem h)
  · exact mem_nbInsert.1 h

theorem mem_nbCorr {n : Nat} {f : A → Option (List Str)} : ∀ {l : List (Score × A)} {nb r : List (Score × List Str)},
    nbCorr n f l nb = some r → ∀ y ∈ r, y ∈ nb ∨ ∃ x ∈ l, x.1 = y.1 ∧ f x.2 = some y.2 := by
  intro l
  induction l with
  | nil => intro nb r h y hy; simp only [nbCorr, Option.some.injEq] at h; subst h; exact Or.inl hy
  | cons x l ih =>
    intro nb r h y hy
    unfold nbCorr at h
    cases hf : f x.2 with
    | none => simp [hf] at h
    | some c =>
      simp only [hf] at h
      rcases ih h y hy with h | ⟨z, h1, h2⟩
      · rcases mem_nbAdd h with rfl | h
        · exact Or.inr ⟨x, by simp, rfl, hf⟩
        · exact Or.inl h
      · exact Or.inr ⟨z, by simp [h1], h2⟩

/-- The fold of insertions. -/
def sortNb (l : List (Score × A)) (nb : List (Score × A)) : List (Score × A) := l.foldl (fun nb x => nbInsert x nb) nb

theorem sortNb_perm : ∀ (l nb : List (Score × A)), (sortNb l nb).Perm (l ++ nb) := by
  intro l
  induction l with
  | nil => intro nb; exact List.Perm.refl _
  | cons x l ih =>
    intro nb
    refine (ih (nbInsert x nb)).trans ?_
    refine (List.Perm.append_left l (perm_nbInsert x nb)).trans ?_
    exact List.perm_middle

theorem sortNb_desc : ∀ (l nb : List (Score × A)), Desc nb → Desc (sortNb l nb) := by
  intro l
  induction l with
  | nil => intro nb h; exact h
  | cons x l ih => intro nb h; exact ih _ (desc_nbInsert h)

theorem take_sortNb (n : Nat) : ∀ (l nb : List (Score × A)), (sortNb l (nb.take n)).take n = (sortNb l nb).take n := by
  intro l
  induction l with
  | nil => intro nb; simp [sortNb, List.take_take]
  | cons x l ih =>
    intro nb
    show (sortNb l (nbInsert x (nb.take n))).take n = (sortNb l (nbInsert x nb)).take n
    rw [← ih (nbInsert x (nb.take n)), take_nbInsert, ih]

theorem foldl_nbAdd (n : Nat) : ∀ (l nb : List (Score × A)), nb.length ≤ n →
    l.foldl (fun nb x => nbAdd n x nb) nb = (sortNb l nb).take n := by
  intro l
  induction l with
  | nil => intro nb h; simp [sortNb, List.take_of_length_le h]
  | cons x l ih =>
    intro nb h
    rw [List.foldl_cons, ih _ (length_nbAdd n x nb h), nbAdd_eq n x nb h, take_sortNb]
    rfl

end nb

/-! ## The best suffix -/

/-- Invariant of the loop that computes the best predecessor arcs. -/
structure BInv (g : WG) (ex : List Nat) (s : Nat) (st : WordGraph.PrevSt) : Prop where
  ge : ∀ (t : Nat) v, t ≠ s → st.prev[t]? = some v → small ≤ v
  best : ∀ (t : Nat) a, t ≠ s → st.best[t]? = some (some a) → ∃ i, Allowed g ex i a ∧ a.succ = t

theorem BInv.step {g : WG} {ex : List Nat} {s : Nat} {st st' : WordGraph.PrevSt} (h : BInv g ex s st) (i : Nat)
    (he : WordGraph.prevStep g ex [] i st = some st') : BInv g ex s st' := by
  unfold WordGraph.prevStep WordGraph.arcPruned WordGraph.arc at he
  cases hp : g.pruned[i]? with
  | none => simp [hp] at he
  | some b =>
    cases b with
    | true => simp [hp] at he; subst he; exact h
    | false =>
      cases ha : g.arcs[i]? with
      | none => simp [hp, ha] at he
      | some a =>
        simp only [hp, ha] at he
        cases h1 : st.acc[a.pred]? with
        | none => simp [h1] at he
        | some b =>
          cases b with
          | true =>
            have hes : WordGraph.effScore g [] i a = some a.score := by
              simp [WordGraph.effScore, WordGraph.altAppliable]
            cases h3 : st.prev[a.pred]? with
            | none => simp [h1, hes, h3] at he
            | some pv =>
              cases h4 : st.prev[a.succ]? with
              | none => simp [h1, hes, h3, h4] at he
              | some sv =>
                simp only [h1, hes, h3, h4, Option.some.injEq] at he
                subst he
                unfold WordGraph.relaxPrev
                simp only
                generalize hsc : (if (if ex.contains i = true then small else a.score + pv) < small then small
                  else if ex.contains i = true then small else a.score + pv) = sc
                have hge : small ≤ sc := by rw [← hsc]; split <;> grind
                split
                · rename_i hgt
                  constructor
                  · intro t v ht hv
                    simp only [List.getElem?_set] at hv
                    split at hv
                    · split at hv
                      · cases hv; exact hge
                      · cases hv
                    · exact h.ge t v ht hv
                  · intro t b ht hb
                    simp only [List.getElem?_set] at hb
                    split at hb
                    · split at hb
                      · cases hb
                        rename_i hst _
                        refine ⟨i, ⟨⟨ha, hp⟩, fun hx => ?_⟩, hst⟩
                        have hxc : ex.contains i = true := by simpa using hx
                        rw [hxc] at hsc
                        simp only [if_true] at hsc
                        have := h.ge a.succ sv (hst ▸ ht) h4
                        grind
                      · cases hb
                    · exact h.best t b ht hb
                · exact ⟨h.ge, h.best⟩
          | false =>
            simp only [h1] at he
            cases h2 : st.acc[a.succ]? with
            | none => simp [h2] at he
            | some b =>
              cases b with
              | true => simp [h2] at he; subst he; exact h
              | false =>
                simp only [h2, Option.some.injEq] at he
                subst he
                refine ⟨fun t v ht hv => ?_, h.best⟩
                simp only [List.getElem?_set] at hv
                split at hv
                · split at hv
                  · cases hv; exact Rat.le_refl
                  · cases hv
                · exact h.ge t v ht hv

theorem BInv.loop {g : WG} {ex : List Nat} {s : Nat} : ∀ (l : List Nat) {st st' : WordGraph.PrevSt}, BInv g ex s st →
    WordGraph.prevLoop g ex [] l st = some st' → BInv g ex s st' := by
  intro l
  induction l with
  | nil => intro st st' h he; simp only [WordGraph.prevLoop, Option.some.injEq] at he; exact he ▸ h
  | cons i l ih =>
    intro st st' h he
    unfold WordGraph.prevLoop at he
    cases hs : WordGraph.prevStep g ex [] i st with
    | none => simp [hs] at he
    | some st1 => simp only [hs] at he; exact ih (h.step i hs) he

theorem followBest_path {g : WG} {ex : List Nat} {s : Nat} {best : List (Option Arc)}
    (h : ∀ (t : Nat) a, t ≠ s → best[t]? = some (some a) → ∃ i, Allowed g ex i a ∧ a.succ = t) :
    ∀ (fuel t : Nat) (l : List Arc), WordGraph.followBest best s fuel t = some l →
      ∃ p, Path (Allowed g ex) s p t ∧ l = (p.map Prod.snd).reverse := by
  intro fuel
  induction fuel with
  | zero =>
    intro t l hl
    unfold WordGraph.followBest at hl
    split at hl
    · cases hl; rename_i h; subst h; exact ⟨[], .nil t, rfl⟩
    · cases hl
  | succ fuel ih =>
    intro t l hl
    unfold WordGraph.followBest at hl
    split at hl
    · cases hl; rename_i h; subst h; exact ⟨[], .nil t, rfl⟩
    · rename_i hts
      cases hb : best[t]? with
      | none => simp [hb] at hl
      | some o =>
        cases o with
        | none => simp [hb] at hl
        | some a =>
          simp only [hb, Option.map_eq_some_iff] at hl
          obtain ⟨l', hl', rfl⟩ := hl
          obtain ⟨p, hp, rfl⟩ := ih _ _ hl'
          obtain ⟨i, hi, rfl⟩ := h t a hts hb
          exact ⟨p ++ [(i, a)], hp.snoc hi, by simp⟩

/-- The result of the search for the best suffix is a path of allowed arcs to a final state, or empty. -/
theorem bestPath_path {g : WG} {s : Nat} {ex : List Nat} {r : Score × List Arc}
    (h : WordGraph.bestPath g s ex = some r) :
    ∃ p t, Path (Allowed g ex) s p t ∧ r.2 = (p.map Prod.snd).reverse ∧ (t ∈ g.final ∨ p = []) := by
  unfold WordGraph.bestPath WordGraph.bestPathWeights at h
  cases hc : WordGraph.calcPrevScoresWeights g s ex [] with
  | none => simp [hc] at h
  | some pb =>
    simp only [hc] at h
    unfold WordGraph.bestPathAux at h
    cases hf : WordGraph.bestFinal pb.1 g.final (WordGraph.initialState, small) with
    | none => simp [hf] at h
    | some b =>
      simp only [hf] at h
      split at h
      · rename_i hfin
        simp only [Option.map_eq_some_iff] at h
        obtain ⟨l, hl, rfl⟩ := h
        have hbest : ∀ (t : Nat) a, t ≠ s → pb.2[t]? = some (some a) → ∃ i, Allowed g ex i a ∧ a.succ = t := by
          unfold WordGraph.calcPrevScoresWeights at hc
          split at hc
          · cases hc; simp
          · simp only at hc
            split at hc
            · simp only [Option.map_eq_some_iff] at hc
              obtain ⟨st, hst, rfl⟩ := hc
              have hi : BInv g ex s ⟨(List.replicate g.states.length small).set s
                  (if s = WordGraph.initialState then g.init else 0),
                List.replicate g.states.length none, (List.replicate g.states.length false).set s true⟩ := by
                constructor
                · intro t v ht hv
                  simp only [List.getElem?_set, List.getElem?_replicate] at hv
                  split at hv
                  · rename_i h; exact absurd h.symm ht
                  · split at hv <;> cases hv; exact Rat.le_refl
                · intro t a ht hb
                  simp only [List.getElem?_replicate] at hb
                  split at hb <;> cases hb
              exact (hi.loop _ hst).best
            · cases hc
        obtain ⟨p, hp, hpl⟩ := followBest_path hbest _ _ _ hl
        exact ⟨p, b.1, hp, hpl, Or.inl (by simpa [WordGraph.stateIsFinal] using hfin)⟩
      · cases h
        exact ⟨[], s, .nil s, rfl, Or.inr rfl⟩

/-! ## The stored predecessors -/

/-- Every predecessor arc stored for a state is an arc of the graph that enters this state. -/
def PredOk (g : WG) (st : PS) : Prop :=
  ∀ (s j id : Nat), (st.preds s)[j]? = some (some id) → ∃ a, Live g id a ∧ a.succ = s

theorem PredOk.of_preds {g : WG} {st st' : PS} (h : PredOk g st) (he : st'.preds = st.preds) : PredOk g st' := by
  unfold PredOk; rw [he]; exact h

theorem predOk_updateInit {g : WG} {P : Par} {st : PS} (h : PredOk g st) : PredOk g (updateInit g P st) := by
  intro s j id hj
  simp only [updateInit, upd] at hj
  split at hj
  · simp at hj
  · exact h s j id hj

theorem predOk_updateState {g : WG} {P : Par} {id : Nat} {a : Arc} {diff : Nat} {st st' : PS} (h : PredOk g st)
    (ha : Live g id a) (he : updateState P id a diff st = some st') : PredOk g st' := by
  unfold updateState updateWith at he
  generalize arcEcm st id a = ecm at he
  simp only at he
  split at he
  · cases he
    intro s j id' hj
    simp only [upd] at hj
    split at hj
    · rename_i hs
      subst hs
      simp only [newCells, List.map_map, List.getElem?_map, Option.map_eq_some_iff, Function.comp] at hj
      obtain ⟨i, hi, hj⟩ := hj
      obtain ⟨hlt, rfl⟩ := List.getElem?_eq_some_iff.1 hi
      simp only [List.getElem_range] at hj
      have hold : (pad ecm.length none (st.preds a.succ)).getD j none = some id' → ∃ b, Live g id' b ∧ b.succ = a.succ := by
        intro hx
        rw [pad, List.getD_eq_getElem?_getD, List.getElem?_append] at hx
        split at hx
        · cases hq : (st.preds a.succ)[j]? with
          | none => simp [hq] at hx
          | some o => rw [hq] at hx; simp only [Option.getD_some] at hx; subst hx; exact h _ _ _ hq
        · rw [List.getElem?_replicate] at hx
          split at hx <;> simp at hx
      generalize ecm.length - (if diff = 0 then ecm.length else diff) = lo at hj
      unfold relax at hj
      split at hj
      · split at hj
        · simp only [Option.some.injEq] at hj; subst hj; exact ⟨a, ha, rfl⟩
        · exact hold hj
      · exact hold hj
    · exact h s j id' hj
  · cases he

theorem predOk_sweep {g : WG} {f : Nat → Arc → PS → Option PS}
    (hf : ∀ i a st st', Live g i a → PredOk g st → f i a st = some st' → PredOk g st') :
    ∀ (l : List Nat) {st st' : PS}, PredOk g st → sweep g f l st = some st' → PredOk g st' := by
  intro l
  induction l with
  | nil => intro st st' h he; simp only [sweep, Option.some.injEq] at he; exact he ▸ h
  | cons i l ih =>
    intro st st' h he
    unfold sweep at he
    cases ha : g.arcs[i]? with
    | none => simp [ha] at he
    | some a =>
      cases hb : g.pruned[i]? with
      | none => simp [ha, hb] at he
      | some b =>
        simp only [ha, hb] at he
        cases b with
        | true => simp only [if_true] at he; exact ih h he
        | false =>
          cases h1 : f i a st with
          | none => simp [h1] at he
          | some st1 => simp [h1] at he; exact ih (hf i a st st1 ⟨ha, hb⟩ h h1) he

theorem predOk_initVars {g : WG} {P : Par} {st : PS} (h : initVars g P = some st) : PredOk g st := by
  unfold initVars at h
  split at h
  · simp only at h
    refine predOk_sweep ?_ _ (predOk_updateInit ?_) h
    · intro i a st st' ha hp he
      unfold initArc at he
      split at he
      · cases he
      · exact predOk_updateState (PredOk.of_preds hp (by rfl)) ha he
    · intro s j id hj; simp at hj
  · cases h

theorem predOk_shrinkStates {g : WG} {n : Nat} : ∀ (l : List Nat) {st st' : PS}, PredOk g st →
    shrinkStates n l st = some st' → PredOk g st' := by
  intro l
  induction l with
  | nil => intro st st' h he; simp only [shrinkStates, Option.some.injEq] at he; exact he ▸ h
  | cons s l ih =>
    intro st st' h he
    unfold shrinkStates at he
    split at he
    · rename_i b p hb hp
      refine ih ?_ he
      intro t j id hj
      simp only [upd] at hj
      split at hj
      · rename_i hts; subst hts
        unfold popN at hp
        split at hp
        · cases hp
          rw [List.getElem?_take] at hj
          split at hj
          · exact h _ _ _ hj
          · cases hj
        · cases hp
      · exact h _ _ _ hj
    · cases he

theorem predOk_process {g : WG} {P : Par} {inv : List Nat} {q : List Str} {st st' : PS} (h : PredOk g st)
    (he : process g P inv q st = some st') : PredOk g st' := by
  unfold process at he
  split at he
  · cases he
  · rename_i st1 hs
    simp only [Option.map_eq_some_iff] at he
    obtain ⟨st2, he, rfl⟩ := he
    have h1 : PredOk g st1 := predOk_shrinkStates (g := g) inv (h.of_preds (st' := { st with
      esiA := fun i => (st.esiA i).map fun e => ⟨removeN _ e.scr, removeN _ e.op⟩ }) rfl) hs
    refine PredOk.of_preds ?_ (st := st2) rfl
    unfold procDiff at he
    split at he
    · cases he; exact h1
    · refine predOk_sweep ?_ _ (predOk_updateInit (PredOk.of_preds (st := st1) h1 (by rfl))) he
      intro i a st st' ha hp he
      unfold extendArc at he
      split at he
      · cases he
      · exact predOk_updateState (PredOk.of_preds hp (by rfl)) ha he

/-- What the trace back returns are the words of a path from the initial state. -/
theorem uncorr_path {g : WG} {st : PS} (h : PredOk g st) : ∀ (fuel j s : Nat) (u : List Str), uncorr g st fuel j s = some u →
    ∃ p, Path (Live g) 0 p s ∧ u = (p.map Prod.snd).flatMap Arc.words := by
  intro fuel
  induction fuel with
  | zero =>
    intro j s u hu
    unfold uncorr at hu
    split at hu
    · cases hu; rename_i h; subst h; exact ⟨[], .nil 0, rfl⟩
    · cases hu
  | succ fuel ih =>
    intro j s u hu
    unfold uncorr at hu
    split at hu
    · cases hu; rename_i h; subst h; exact ⟨[], .nil 0, rfl⟩
    · simp only at hu
      cases hp : (st.preds s)[j]? with
      | none => simp [hp] at hu
      | some o =>
        cases o with
        | none => simp [hp] at hu
        | some id =>
          simp only [hp] at hu
          obtain ⟨a, ha, rfl⟩ := h s j id hp
          simp only [ha.1] at hu
          cases hb : backWords (st.esiA id) a.words.length j with
          | none => simp [hb] at hu
          | some j' =>
            simp only [hb, Option.map_eq_some_iff] at hu
            obtain ⟨u', hu', rfl⟩ := hu
            obtain ⟨p, hp', rfl⟩ := ih _ _ _ hu'
            exact ⟨p ++ [(id, a)], hp'.snoc ha, by simp⟩

end Thot.WgProc
