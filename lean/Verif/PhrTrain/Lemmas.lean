import Verif.PhrTrain.Model
import Verif.HatTable.Props
import Verif.Vocab.Props
/-! Phrase models accessed by strings: reference semantics and its relation with the vocabularies and the trie. -/
namespace Thot.PhrTrain
open AMap Thot.Vocab Thot.LevelDb

/-! ### Specification -/

/-- Three independent maps on sequences of words. -/
structure SRef where
  s : SPhrase → Option Rat
  t : SPhrase → Option Rat
  st : SPhrase → SPhrase → Option Rat

/-- The calls that modify the table. -/
inductive SOp where
  | incr (s t : SPhrase) (c : Rat)
  | add (s t : SPhrase) (cs cst : Rat)

def SOp.src : SOp → SPhrase
  | .incr s _ _ => s
  | .add s _ _ _ => s
def SOp.trg : SOp → SPhrase
  | .incr _ t _ => t
  | .add _ t _ _ => t

def SRef.empty : SRef := ⟨fun _ => none, fun _ => none, fun _ _ => none⟩

/-- What each call is meant to do. -/
def SRef.step (r : SRef) : SOp → SRef
  | .incr s t c =>
    { s := fun x => if x = s then some ((r.s s).getD 0 + c) else r.s x
      t := fun y => if y = t then some ((r.t t).getD 0 + c) else r.t y
      st := fun x y => if x = s ∧ y = t then some ((r.st s t).getD 0 + c) else r.st x y }
  | .add s t cs cst =>
    { s := fun x => if x = s then some cs else r.s x
      t := fun y => if y = t then some ((r.t t).getD 0 + cst) else r.t y
      st := fun x y => if x = s ∧ y = t then some cst else r.st x y }

def sref (os : List SOp) : SRef := os.foldl SRef.step SRef.empty

/-- The word is not the reserved word `<UNUSED_WORD>`. -/
def Clean (p : SPhrase) : Prop := UNUSED_WORD_STR ∉ p

/-! ### The model -/

def sstep (st : St) : SOp → St
  | .incr s t c => strIncrCountsOfEntry st s t c
  | .add s t cs cst => strAddTableEntry st s t cs cst

def srun (st : St) (os : List SOp) : St := os.foldl sstep st

def enc (v : Voc) (p : SPhrase) : List Nat := p.map (stringToWordIndex v)

def encOp (sv tv : Voc) : SOp → HatTable.Op
  | .incr s t c => .incr (enc sv s) (enc tv t) c
  | .add s t cs cst => .add (enc sv s) (enc tv t) cs cst

/-- All the words are in the vocabulary. -/
def Has (v : Voc) (p : SPhrase) : Prop := ∀ w ∈ p, existSymbol v w = true

theorem has_lk {v : Voc} {p : SPhrase} (h : Has v p) {w : Str} (hw : w ∈ p) : ∃ i, lk v.s2i w = some i :=
  Option.isSome_iff_exists.1 (h w hw)

theorem has_addAll (v : Voc) (p ws : SPhrase) (h : Has v p) : Has (addAll v ws) p := fun w hw =>
  (exists_addAll v ws w).2 (.inl (h w hw))

theorem has_addAll_self (v : Voc) (p : SPhrase) : Has (addAll v p) p := fun w hw => (exists_addAll v p w).2 (.inr hw)

theorem enc_addAll {v : Voc} {p : SPhrase} (h : Has v p) (ws : SPhrase) : enc (addAll v ws) p = enc v p := by
  unfold enc
  apply List.map_congr_left
  intro w hw
  obtain ⟨i, hi⟩ := has_lk h hw
  unfold stringToWordIndex
  rw [stable_addAll hi ws, hi]

theorem strVec_fst (v : Voc) (p : SPhrase) : (strVectorToIndexVector v p).1 = enc (addAll v p) p := by
  induction p generalizing v with
  | nil => rfl
  | cons w p ih =>
    have e : addAll v (w :: p) = addAll (addSymbol v w).2 p := rfl
    simp only [strVectorToIndexVector, ih, enc, List.map_cons, e]
    congr 1
    unfold stringToWordIndex
    rw [stable_addAll (lk_add_self v w) p]; rfl

theorem enc_inj {v : Voc} (hc : Consistent v) {p q : SPhrase} (hp : Has v p) (hq : Has v q) : enc v p = enc v q ↔ p = q := by
  refine ⟨?_, fun h => by rw [h]⟩
  induction p generalizing q with
  | nil => cases q with
    | nil => intro _; rfl
    | cons _ _ => intro h; cases h
  | cons w p ih =>
    cases q with
    | nil => intro h; cases h
    | cons w' q =>
      intro h
      simp only [enc, List.map_cons, List.cons.injEq] at h
      have h1 : w = w' := by
        obtain ⟨i, hi⟩ := has_lk hp (List.mem_cons_self)
        obtain ⟨j, hj⟩ := has_lk hq (List.mem_cons_self)
        have h0 := h.1
        unfold stringToWordIndex at h0
        rw [hi, hj] at h0
        simp only [Option.getD_some] at h0
        subst h0
        have h2 := (hc.corr w i).1 hi
        rw [(hc.corr w' i).1 hj] at h2
        injection h2 with h2; exact h2.symm
      rw [h1, ih (fun x hx => hp x (List.mem_cons_of_mem _ hx)) (fun x hx => hq x (List.mem_cons_of_mem _ hx)) h.2]

theorem enc_ok {v : Voc} (hc : Consistent v) (h2 : lk v.s2i UNUSED_WORD_STR = some 2) (hs : size v ≤ 254 ^ 3) {p : SPhrase}
    (hp : Has v p) (hu : Clean p) : Ok (enc v p) := by
  refine ⟨?_, ?_⟩
  · intro n hn
    obtain ⟨w, hw, rfl⟩ := List.mem_map.1 hn
    obtain ⟨i, hi⟩ := has_lk hp hw
    have : i < size v := (hc.dense i).1 ⟨w, (hc.corr w i).1 hi⟩
    unfold stringToWordIndex
    rw [hi, Option.getD_some]
    refine ⟨by omega, ?_⟩
    have h3 : (254 : Nat) ^ 3 < 2 ^ 32 := by decide
    omega
  · intro hn
    obtain ⟨w, hw, he⟩ := List.mem_map.1 hn
    obtain ⟨i, hi⟩ := has_lk hp hw
    unfold stringToWordIndex at he
    rw [hi, Option.getD_some] at he
    subst he
    have h3 := (hc.corr w _).1 hi
    have h4 := (hc.corr _ _).1 h2
    have : (2 : Nat) = unusedWord := rfl
    rw [← this, h4] at h3
    injection h3 with h3
    exact hu (h3 ▸ hw)

theorem known_eq (v : Voc) (p : SPhrase) (h : Has v p) : known v p = some (enc v p) := by
  induction p with
  | nil => rfl
  | cons w p ih =>
    rw [known, if_pos (h w List.mem_cons_self), ih (fun x hx => h x (List.mem_cons_of_mem _ hx))]; rfl

theorem known_none (v : Voc) (p : SPhrase) (h : ¬ Has v p) : known v p = none := by
  induction p with
  | nil => exact absurd (by intro w hw; cases hw) h
  | cons w p ih =>
    rw [known]
    split
    · next hw =>
      rw [ih]; · rfl
      intro hc
      exact h (by intro x hx; rcases List.mem_cons.1 hx with rfl | hx; (exact hw); exact hc x hx)
    · rfl

/-- The state after a history is that of the trie after the encoded history. -/
structure Rel (st : St) (os : List SOp) : Prop where
  cs : Consistent st.sv
  ct : Consistent st.tv
  us : lk st.sv.s2i UNUSED_WORD_STR = some 2
  ut : lk st.tv.s2i UNUSED_WORD_STR = some 2
  hs : ∀ o ∈ os, Has st.sv o.src
  ht : ∀ o ∈ os, Has st.tv o.trg
  m : st.m = HatTable.run (os.map (encOp st.sv st.tv))

theorem rel_clear : Rel clear [] :=
  ⟨consistent_clear, consistent_clear, by show lk Vocab.clear.s2i _ = _; rw [clear_s2i]; decide,
    by show lk Vocab.clear.s2i _ = _; rw [clear_s2i]; decide, (by intro o ho; cases ho), (by intro o ho; cases ho), rfl⟩

theorem encOp_addAll {sv tv : Voc} {o : SOp} (h1 : Has sv o.src) (h2 : Has tv o.trg) (a b : SPhrase) :
    encOp (addAll sv a) (addAll tv b) o = encOp sv tv o := by
  cases o <;> simp only [encOp, SOp.src, SOp.trg] at * <;> rw [enc_addAll h1, enc_addAll h2]

theorem sstep_eq (st : St) (o : SOp) : sstep st o =
    ⟨addAll st.sv o.src, addAll st.tv o.trg, HatTable.step st.m (encOp (addAll st.sv o.src) (addAll st.tv o.trg) o)⟩ := by
  cases o <;> simp only [sstep, strIncrCountsOfEntry, strAddTableEntry, strVec_eq, strVec_fst, SOp.src, SOp.trg, encOp, HatTable.step]

theorem rel_step {st : St} {os : List SOp} (h : Rel st os) (o : SOp) : Rel (sstep st o) (os ++ [o]) := by
  rw [sstep_eq]
  refine ⟨consistent_addAll h.cs _, consistent_addAll h.ct _, stable_addAll h.us _, stable_addAll h.ut _, ?_, ?_, ?_⟩
  · intro o' ho
    rcases List.mem_append.1 ho with ho | ho
    · exact has_addAll _ _ _ (h.hs o' ho)
    · rw [List.mem_singleton] at ho; subst ho; exact has_addAll_self _ _
  · intro o' ho
    rcases List.mem_append.1 ho with ho | ho
    · exact has_addAll _ _ _ (h.ht o' ho)
    · rw [List.mem_singleton] at ho; subst ho; exact has_addAll_self _ _
  · have e : os.map (encOp (addAll st.sv o.src) (addAll st.tv o.trg)) = os.map (encOp st.sv st.tv) :=
      List.map_congr_left fun o' ho => encOp_addAll (h.hs o' ho) (h.ht o' ho) _ _
    simp only [List.map_append, List.map_cons, List.map_nil, HatTable.run, List.foldl_append, List.foldl_cons, List.foldl_nil]
    rw [e, h.m]; rfl

theorem rel_run {st : St} {pre : List SOp} (h : Rel st pre) (os : List SOp) : Rel (srun st os) (pre ++ os) := by
  induction os generalizing st pre with
  | nil => simpa [srun] using h
  | cons o os ih =>
    have := ih (rel_step h o)
    simpa [srun] using this

theorem snoc_ind {α : Type} {P : List α → Prop} (nil : P []) (snoc : ∀ l a, P l → P (l ++ [a])) (l : List α) : P l := by
  have : ∀ r : List α, P r.reverse := by
    intro r
    induction r with
    | nil => exact nil
    | cons a r ih => rw [List.reverse_cons]; exact snoc _ _ ih
  simpa using this l.reverse

/-- The references correspond. -/
theorem ref_enc {sv tv : Voc} (cs : Consistent sv) (ct : Consistent tv) (os : List SOp) :
    (∀ o ∈ os, Has sv o.src) → (∀ o ∈ os, Has tv o.trg) →
    (∀ p, Has sv p → (HatTable.ref (os.map (encOp sv tv))).s (enc sv p) = (sref os).s p) ∧
    (∀ q, Has tv q → (HatTable.ref (os.map (encOp sv tv))).t (enc tv q) = (sref os).t q) ∧
    (∀ p q, Has sv p → Has tv q → (HatTable.ref (os.map (encOp sv tv))).st (enc sv p) (enc tv q) = (sref os).st p q) := by
  induction os using snoc_ind with
  | nil => intro _ _; exact ⟨fun _ _ => rfl, fun _ _ => rfl, fun _ _ _ _ => rfl⟩
  | snoc os o ih =>
    intro h1 h2
    obtain ⟨g1, g2, g3⟩ := ih (fun o ho => h1 o (List.mem_append_left _ ho)) (fun o ho => h2 o (List.mem_append_left _ ho))
    have hs := h1 o (by simp)
    have ht := h2 o (by simp)
    have e1 : HatTable.ref ((os ++ [o]).map (encOp sv tv)) = HatTable.Ref.step (HatTable.ref (os.map (encOp sv tv))) (encOp sv tv o) := by
      simp [HatTable.ref]
    have e2 : sref (os ++ [o]) = SRef.step (sref os) o := by simp [sref]
    rw [e1, e2]
    cases o with
    | incr s t c =>
      simp only [SOp.src, SOp.trg] at hs ht
      refine ⟨fun p hp => ?_, fun q hq => ?_, fun p q hp hq => ?_⟩
      · simp only [encOp, HatTable.Ref.step, HatTable.upd, SRef.step, enc_inj cs hp hs, g1 _ hp, g1 _ hs]
      · simp only [encOp, HatTable.Ref.step, HatTable.upd, SRef.step, enc_inj ct hq ht, g2 _ hq, g2 _ ht]
      · simp only [encOp, HatTable.Ref.step, HatTable.upd2, SRef.step, enc_inj cs hp hs, enc_inj ct hq ht, g3 _ _ hp hq, g3 _ _ hs ht]
    | add s t a b =>
      simp only [SOp.src, SOp.trg] at hs ht
      refine ⟨fun p hp => ?_, fun q hq => ?_, fun p q hp hq => ?_⟩
      · simp only [encOp, HatTable.Ref.step, HatTable.upd, SRef.step, enc_inj cs hp hs, g1 _ hp]
      · simp only [encOp, HatTable.Ref.step, HatTable.upd, SRef.step, enc_inj ct hq ht, g2 _ hq, g2 _ ht]
      · simp only [encOp, HatTable.Ref.step, HatTable.upd2, SRef.step, enc_inj cs hp hs, enc_inj ct hq ht, g3 _ _ hp hq]

/-- What is recorded was given in some call. -/
theorem sref_mem (os : List SOp) :
    (∀ p c, (sref os).s p = some c → ∃ o ∈ os, o.src = p) ∧ (∀ q c, (sref os).t q = some c → ∃ o ∈ os, o.trg = q) ∧
    (∀ p q c, (sref os).st p q = some c → ∃ o ∈ os, o.src = p ∧ o.trg = q) := by
  induction os using snoc_ind with
  | nil => exact ⟨fun _ _ h => (by cases h), fun _ _ h => (by cases h), fun _ _ _ h => (by cases h)⟩
  | snoc os o ih =>
    obtain ⟨g1, g2, g3⟩ := ih
    have e2 : sref (os ++ [o]) = SRef.step (sref os) o := by simp [sref]
    rw [e2]
    refine ⟨?_, ?_, ?_⟩
    · intro p c hc
      by_cases hp : p = o.src
      · exact ⟨o, by simp, hp.symm⟩
      · cases o <;> (simp only [SRef.step, SOp.src] at hc hp; rw [if_neg hp] at hc; obtain ⟨o', ho, he⟩ := g1 p c hc; exact ⟨o', List.mem_append_left _ ho, he⟩)
    · intro p c hc
      by_cases hp : p = o.trg
      · exact ⟨o, by simp, hp.symm⟩
      · cases o <;> (simp only [SRef.step, SOp.trg] at hc hp; rw [if_neg hp] at hc; obtain ⟨o', ho, he⟩ := g2 p c hc; exact ⟨o', List.mem_append_left _ ho, he⟩)
    · intro p q c hc
      by_cases hp : p = o.src ∧ q = o.trg
      · exact ⟨o, by simp, hp.1.symm, hp.2.symm⟩
      · cases o <;> (simp only [SRef.step, SOp.trg, SOp.src] at hc hp; rw [if_neg hp] at hc; obtain ⟨o', ho, he⟩ := g3 p q c hc; exact ⟨o', List.mem_append_left _ ho, he⟩)

theorem encOp_ok {st : St} {os : List SOp} (h : Rel st os) (hu : ∀ o ∈ os, Clean o.src ∧ Clean o.trg ∧ o.trg ≠ [])
    (n1 : size st.sv ≤ 254 ^ 3) (n2 : size st.tv ≤ 254 ^ 3) : ∀ o ∈ os.map (encOp st.sv st.tv), HatTable.OpOk o := by
  intro o ho
  obtain ⟨o, hmem, rfl⟩ := List.mem_map.1 ho
  clear ho
  have ho := hmem
  obtain ⟨u1, u2, u3⟩ := hu o ho
  have k1 := enc_ok h.cs h.us n1 (h.hs o ho) u1
  have k2 := enc_ok h.ct h.ut n2 (h.ht o ho) u2
  have k3 : enc st.tv o.trg ≠ [] := fun hc => u3 (List.map_eq_nil_iff.1 hc)
  cases o <;> exact ⟨k1, k2, k3⟩

/-- The counts by strings. -/
theorem counts {st : St} {os : List SOp} (h : Rel st os) (hu : ∀ o ∈ os, Clean o.src ∧ Clean o.trg ∧ o.trg ≠ [])
    (n1 : size st.sv ≤ 254 ^ 3) (n2 : size st.tv ≤ 254 ^ 3) (p q : SPhrase) (hp : Clean p) (hq : Clean q) (hn : q ≠ []) :
    cHSrc st p = ((sref os).s p).getD 0 ∧ cHTrg st q = ((sref os).t q).getD 0 ∧
    cHSrcHTrg st p q = ((sref os).st p q).getD 0 := by
  have ho := encOp_ok h hu n1 n2
  obtain ⟨g1, g2, g3⟩ := ref_enc h.cs h.ct os h.hs h.ht
  obtain ⟨m1, m2, m3⟩ := sref_mem os
  have inv := HatTable.inv_run _ ho
  rw [← h.m] at inv
  have ns : ¬ Has st.sv p → (sref os).s p = none ∧ ∀ q, (sref os).st p q = none := by
    intro hc
    refine ⟨Option.eq_none_iff_forall_not_mem.2 ?_, fun q => Option.eq_none_iff_forall_not_mem.2 ?_⟩
    · intro c hcc
      obtain ⟨o, ho, rfl⟩ := m1 p c hcc
      exact hc (h.hs o ho)
    · intro c hcc
      obtain ⟨o, ho, rfl, _⟩ := m3 p q c hcc
      exact hc (h.hs o ho)
  have nt : ¬ Has st.tv q → (sref os).t q = none ∧ ∀ p, (sref os).st p q = none := by
    intro hc
    refine ⟨Option.eq_none_iff_forall_not_mem.2 ?_, fun p => Option.eq_none_iff_forall_not_mem.2 ?_⟩
    · intro c hcc
      obtain ⟨o, ho, rfl⟩ := m2 q c hcc
      exact hc (h.ht o ho)
    · intro c hcc
      obtain ⟨o, ho, _, rfl⟩ := m3 p q c hcc
      exact hc (h.ht o ho)
  have kq : Has st.tv q → Ok (enc st.tv q) ∧ enc st.tv q ≠ [] := fun hh =>
    ⟨enc_ok h.ct h.ut n2 hh hq, fun hc => hn (List.map_eq_nil_iff.1 hc)⟩
  refine ⟨?_, ?_, ?_⟩
  · unfold cHSrc
    by_cases hp' : Has st.sv p
    · rw [known_eq _ _ hp']
      show (HatTable.getSrcInfo st.m (enc st.sv p)).1 = _
      rw [HatTable.getSrcInfo, inv.src _ (enc_ok h.cs h.us n1 hp' hp), g1 _ hp']
    · rw [known_none _ _ hp', (ns hp').1]; rfl
  · unfold cHTrg
    by_cases hq' : Has st.tv q
    · rw [known_eq _ _ hq']
      show (HatTable.getTrgInfo st.m (enc st.tv q)).1 = _
      rw [HatTable.getTrgInfo, inv.trg _ (kq hq').1 (kq hq').2, g2 _ hq']
    · rw [known_none _ _ hq', (nt hq').1]; rfl
  · unfold cHSrcHTrg
    by_cases hp' : Has st.sv p
    · rw [known_eq _ _ hp']
      by_cases hq' : Has st.tv q
      · rw [known_eq _ _ hq']
        show (HatTable.getSrcTrgInfo st.m (enc st.sv p) (enc st.tv q)).1 = _
        rw [HatTable.getSrcTrgInfo, inv.pair _ _ (enc_ok h.cs h.us n1 hp' hp) (kq hq').1 (kq hq').2, g3 _ _ hp' hq']
      · rw [known_none _ _ hq', (nt hq').2]; rfl
    · rw [known_none _ _ hp', (ns hp').2]; rfl

end Thot.PhrTrain
