import Verif.PhrTrain.Props
import Verif.HatTable.Iter
import Verif.SentHandler.Props
/-! C161: printing a phrase table and loading it. -/
namespace Thot.PhrTrain
open AMap Thot.Vocab Thot.LevelDb
open Thot.SentHandler (joinWords Word fields_join)

/-! ### Specification -/

/-- The words that can be written in the file: no blank, newline or NUL, not empty, not the separator and not the reserved
word. -/
def FWord (w : Str) : Prop := Word w ∧ w ≠ ['|', '|', '|'] ∧ w ≠ UNUSED_WORD_STR

/-- The pair is recorded and neither its count nor that of its source phrase is negligible (below `EPSILON`). -/
def Kept (r : SRef) (p q : SPhrase) : Prop :=
  ∃ cs c, r.s p = some cs ∧ r.st p q = some c ∧ ¬ rabs cs < 100 / 8388608 ∧ ¬ rabs c < 100 / 8388608

/-! ### Lines -/

/-- source phrase, target phrase, count of the source phrase, count of the pair -/
abbrev Row := SPhrase × SPhrase × Rat × Rat

def lineOf (fmt : Rat → Str) (x : Row) : Str := joinWords (x.1 ++ bars :: x.2.1 ++ [bars, fmt x.2.2.1, fmt x.2.2.2])

theorem join_cons (w : Str) {ws : List Str} (h : ws ≠ []) : joinWords (w :: ws) = w ++ ' ' :: joinWords ws := by
  cases ws with
  | nil => exact absurd rfl h
  | cons v ws => rw [joinWords]; simp

theorem join_left (xs : List Str) {ys : List Str} (h : ys ≠ []) :
    joinWords (xs ++ ys) = (xs.flatMap fun w => w ++ [' ']) ++ joinWords ys := by
  induction xs with
  | nil => rfl
  | cons x xs ih =>
    rw [List.cons_append, join_cons _ (by simp [h]), ih]; simp

theorem join_right (y : Str) (t : List Str) {zs : List Str} (h : zs ≠ []) :
    joinWords (y :: t ++ zs) = y ++ (t.flatMap fun w => ' ' :: w) ++ ' ' :: joinWords zs := by
  induction t generalizing y with
  | nil => rw [List.cons_append, List.nil_append, join_cons _ h]; simp
  | cons x t ih =>
    rw [List.cons_append, join_cons _ (by simp), ih]; simp

theorem line_eq (fmt : Rat → Str) (p q : SPhrase) (cs c : Rat) : lineOf fmt (p, q, cs, c) ++ ['\n'] =
    (p.flatMap fun w => w ++ [' ']) ++ ['|', '|', '|'] ++ (q.flatMap fun w => ' ' :: w) ++
    [' ', '|', '|', '|', ' '] ++ fmt cs ++ [' '] ++ fmt c ++ ['\n'] := by
  unfold lineOf
  rw [List.append_assoc, join_left _ (by simp), join_right _ _ (by simp), join_cons _ (by simp), join_cons _ (by simp)]
  simp [bars, joinWords]

theorem dollar_at (l : Str) (fs : List Str) (h : Awk.fields ' ' l = fs) (n : Nat) : Awk.dollar ' ' l (n + 1) = fs[n]?.getD [] := by
  rw [(Awk.C41_dollar ' ' l).2, h]

theorem readPhrase_spec (l : Str) (a b c : List Str) (h : Awk.fields ' ' l = a ++ b ++ bars :: c) (hb : bars ∉ b) :
    ∀ (fuel : Nat) (acc : SPhrase), b.length < fuel → readPhrase l fuel (a.length + 1) acc = (acc ++ b, a.length + b.length + 1) := by
  induction b generalizing a with
  | nil =>
    intro fuel acc hf
    obtain ⟨f, rfl⟩ : ∃ f, fuel = f + 1 := ⟨fuel - 1, by simp at hf; omega⟩
    rw [readPhrase, if_neg]
    · simp
    · rintro ⟨_, h2⟩
      apply h2
      rw [dollar_at l _ h]
      simp
  | cons w b ih =>
    intro fuel acc hf
    obtain ⟨f, rfl⟩ : ∃ f, fuel = f + 1 := ⟨fuel - 1, by simp at hf; omega⟩
    have hw : w ≠ bars := fun hc => hb (by rw [hc]; exact List.mem_cons_self)
    have hd : Awk.dollar ' ' l (a.length + 1) = w := by
      rw [dollar_at l _ h]; simp
    have h' : Awk.fields ' ' l = (a ++ [w]) ++ b ++ bars :: c := by rw [h]; simp
    have := ih (a ++ [w]) h' (fun hm => hb (List.mem_cons_of_mem _ hm)) f (acc ++ [w]) (by simp at hf; omega)
    rw [readPhrase, if_pos ⟨by rw [Awk.C41_NF, h]; simp, by rw [hd]; exact hw⟩, hd]
    simp only [List.length_append, List.length_cons, List.length_nil] at this ⊢
    rw [this]
    simp; omega

theorem loadLine_spec (fmt : Rat → Str) (atof : Str → Rat) (hf : ∀ x, Word (fmt x)) (st : St) (x : Row)
    (h1 : ∀ w ∈ x.1, FWord w) (h2 : ∀ w ∈ x.2.1, FWord w) (n1 : x.1 ≠ []) (n2 : x.2.1 ≠ []) :
    loadLine atof st (lineOf fmt x) = sstep st (.add x.1 x.2.1 (atof (fmt x.2.2.1)) (atof (fmt x.2.2.2))) := by
  obtain ⟨p, q, cs, c⟩ := x
  have hw : ∀ w ∈ p ++ bars :: q ++ [bars, fmt cs, fmt c], Word w := by
    have hb : Word bars := ⟨by simp [bars], by decide⟩
    intro w hw
    simp only [List.mem_append, List.mem_cons, List.not_mem_nil, or_false] at hw
    rcases hw with (hw | rfl | hw) | rfl | rfl | rfl
    · exact (h1 w hw).1
    · exact hb
    · exact (h2 w hw).1
    · exact hb
    · exact hf _
    · exact hf _
  have hfl : Awk.fields ' ' (lineOf fmt (p, q, cs, c)) = p ++ bars :: q ++ [bars, fmt cs, fmt c] := fields_join hw
  have hlen : Awk.getNF ' ' (lineOf fmt (p, q, cs, c)) = p.length + q.length + 4 := by
    rw [Awk.C41_NF, hfl]; simp; omega
  have e1 := readPhrase_spec _ [] p (q ++ [bars, fmt cs, fmt c]) (by rw [hfl]; simp) (fun hm => (h1 _ hm).2.1 rfl)
    (p.length + q.length + 4 + 1) [] (by omega)
  have e2 := readPhrase_spec _ (p ++ [bars]) q [fmt cs, fmt c] (by rw [hfl]; simp) (fun hm => (h2 _ hm).2.1 rfl)
    (p.length + q.length + 4 + 1) [] (by omega)
  simp only [List.length_nil, Nat.zero_add, List.nil_append, List.length_append, List.length_cons] at e1 e2
  have d : ∀ n, Awk.dollar ' ' (lineOf fmt (p, q, cs, c)) (p.length + 1 + q.length + 1 + n) = [bars, fmt cs, fmt c][n]?.getD [] := by
    intro n
    rw [show p.length + 1 + q.length + 1 + n = (p.length + 1 + q.length + n) + 1 by omega, dollar_at _ _ hfl,
      List.getElem?_append_right (by simp; omega)]
    congr 2
    simp; omega
  unfold loadLine
  simp only [hlen]
  rw [if_pos (by omega)]
  simp only [e1, e2]
  rw [if_pos ⟨by omega, by rw [show p.length + 1 + q.length + 1 = p.length + 1 + q.length + 1 + 0 by omega, d]; rfl, n1, n2⟩,
    show p.length + 1 + q.length + 1 + 1 = p.length + 1 + q.length + 1 + 1 by omega, d 1, d 2]
  rfl

theorem loadLines_spec (fmt : Rat → Str) (atof : Str → Rat) (hf : ∀ x, Word (fmt x)) (rows : List Row)
    (h : ∀ x ∈ rows, (∀ w ∈ x.1, FWord w) ∧ (∀ w ∈ x.2.1, FWord w) ∧ x.1 ≠ [] ∧ x.2.1 ≠ []) (st : St) :
    loadLines atof (rows.map (lineOf fmt)) st =
      srun st (rows.map fun x => .add x.1 x.2.1 (atof (fmt x.2.2.1)) (atof (fmt x.2.2.2))) := by
  induction rows generalizing st with
  | nil => rfl
  | cons x rows ih =>
    obtain ⟨h1, h2, h3, h4⟩ := h x List.mem_cons_self
    rw [List.map_cons, loadLines, loadLine_spec fmt atof hf st x h1 h2 h3 h4, ih (fun y hy => h y (List.mem_cons_of_mem _ hy))]
    rfl

/-! ### Printing -/

theorem decode_enc {v : Voc} (hc : Consistent v) {p : SPhrase} (hp : Has v p) : (enc v p).map (wordIndexToString v) = p := by
  unfold enc
  rw [List.map_map]
  conv => rhs; rw [← List.map_id p]
  apply List.map_congr_left
  intro w hw
  obtain ⟨i, hi⟩ := has_lk hp hw
  simp only [Function.comp, stringToWordIndex, wordIndexToString, hi, Option.getD_some, (hc.corr w i).1 hi, id]

theorem printLine_enc (fmt : Rat → Str) (st : St) (hs : Consistent st.sv) (ht : Consistent st.tv) {p q : SPhrase} (hp : Has st.sv p)
    (hq : Has st.tv q) (cs c : Rat) : printLine fmt st (enc st.tv q) (enc st.sv p, (cs, c)) = lineOf fmt (p, q, cs, c) ++ ['\n'] := by
  rw [line_eq]
  unfold printLine
  have e1 : ((enc st.sv p).flatMap fun w => wordIndexToString st.sv w ++ [' ']) = p.flatMap fun w => w ++ [' '] := by
    conv => rhs; rw [← decode_enc hs hp]
    rw [List.flatMap_map]
  have e2 : ((enc st.tv q).flatMap fun w => ' ' :: wordIndexToString st.tv w) = q.flatMap fun w => ' ' :: w := by
    conv => rhs; rw [← decode_enc ht hq]
    rw [List.flatMap_map]
  rw [e1, e2]

/-- Recorded phrases are encodings. -/
theorem ref_mem (sv tv : Voc) (os : List SOp) :
    (∀ a c, (HatTable.ref (os.map (encOp sv tv))).s a = some c → ∃ o ∈ os, enc sv o.src = a) ∧
    (∀ b c, (HatTable.ref (os.map (encOp sv tv))).t b = some c → ∃ o ∈ os, enc tv o.trg = b) := by
  induction os using snoc_ind with
  | nil => exact ⟨fun _ _ h => (by cases h), fun _ _ h => (by cases h)⟩
  | snoc os o ih =>
    obtain ⟨g1, g2⟩ := ih
    have e1 : HatTable.ref ((os ++ [o]).map (encOp sv tv)) = HatTable.Ref.step (HatTable.ref (os.map (encOp sv tv))) (encOp sv tv o) := by
      simp [HatTable.ref]
    rw [e1]
    refine ⟨?_, ?_⟩
    · intro a c hc
      by_cases ha : a = enc sv o.src
      · exact ⟨o, by simp, ha.symm⟩
      · cases o <;> (simp only [HatTable.Ref.step, encOp, HatTable.upd, SOp.src] at hc ha; rw [if_neg ha] at hc; obtain ⟨o', ho, he⟩ := g1 a c hc; exact ⟨o', List.mem_append_left _ ho, he⟩)
    · intro a c hc
      by_cases ha : a = enc tv o.trg
      · exact ⟨o, by simp, ha.symm⟩
      · cases o <;> (simp only [HatTable.Ref.step, encOp, HatTable.upd, SOp.trg] at hc ha; rw [if_neg ha] at hc; obtain ⟨o', ho, he⟩ := g2 a c hc; exact ⟨o', List.mem_append_left _ ho, he⟩)

/-- The row says what is recorded, and its counts are not negligible. -/
def RowOf (r : SRef) (x : Row) : Prop :=
  r.s x.1 = some x.2.2.1 ∧ r.st x.1 x.2.1 = some x.2.2.2 ∧ ¬ rabs x.2.2.1 < eps ∧ ¬ rabs x.2.2.2 < eps

/-- The lines of one target phrase. -/
theorem print_one (fmt : Rat → Str) {st : St} {os : List SOp} (h : Rel st os)
    (hu : ∀ o ∈ os, Clean o.src ∧ Clean o.trg ∧ o.trg ≠ []) (n1 : size st.sv ≤ 254 ^ 3) (n2 : size st.tv ≤ 254 ^ 3)
    {m : HatTable.Trie} (hm : m.Perm st.m) {q : SPhrase} (hq : Has st.tv q) (hqc : Clean q) (hqn : q ≠ []) :
    ∃ es : List (List Nat × (Rat × Rat)), ∃ b, HatTable.getEntriesForTarget m (enc st.tv q) = some (es, b) ∧ ∃ rows : List Row,
      es.flatMap (printLine fmt { st with m := m } (enc st.tv q)) = rows.flatMap (fun x => lineOf fmt x ++ ['\n']) ∧
      (rows.map Prod.fst).Nodup ∧ (∀ x ∈ rows, x.2.1 = q) ∧ ∀ x, x ∈ rows ↔ x.2.1 = q ∧ RowOf (sref os) x := by
  have ho := encOp_ok h hu n1 n2
  obtain ⟨g1, _, g3⟩ := ref_enc h.cs h.ct os h.hs h.ht
  have hok := enc_ok h.ct h.ut n2 hq hqc
  have hne : enc st.tv q ≠ [] := fun hc => hqn (List.map_eq_nil_iff.1 hc)
  obtain ⟨es, h1, h2, h3⟩ := HatTable.C157_target _ ho m (h.m ▸ hm) (enc st.tv q) hok hne
  refine ⟨es, _, h1, ?_⟩
  have key : ∀ es : List (List Nat × (Rat × Rat)), (∀ x ∈ es, HatTable.TrgEntry (HatTable.ref (os.map (encOp st.sv st.tv))) (enc st.tv q) x) →
      ∃ rows : List Row, es.flatMap (printLine fmt { st with m := m } (enc st.tv q)) = rows.flatMap (fun x => lineOf fmt x ++ ['\n']) ∧
        (∀ x ∈ rows, Has st.sv x.1 ∧ x.2.1 = q) ∧ es = rows.map fun x => (enc st.sv x.1, (x.2.2.1, x.2.2.2)) := by
    intro es hes
    induction es with
    | nil => exact ⟨[], rfl, by simp, rfl⟩
    | cons e es ih =>
      obtain ⟨rows, r1, r2, r3⟩ := ih (fun x hx => hes x (List.mem_cons_of_mem _ hx))
      obtain ⟨e1, _⟩ := hes e List.mem_cons_self
      obtain ⟨o, ho, he⟩ := (ref_mem st.sv st.tv os).1 _ _ e1
      refine ⟨(o.src, q, e.2.1, e.2.2) :: rows, ?_, ?_, ?_⟩
      · rw [List.flatMap_cons, List.flatMap_cons, r1]
        congr 1
        have := printLine_enc fmt { st with m := m } h.cs h.ct (h.hs o ho) hq e.2.1 e.2.2
        rw [← this]
        simp only [he]
      · intro x hx
        rcases List.mem_cons.1 hx with rfl | hx
        · exact ⟨h.hs o ho, rfl⟩
        · exact r2 x hx
      · rw [List.map_cons, ← r3]; simp only [he]
  obtain ⟨rows, r1, r2, r3⟩ := key es (fun x hx => (h2 x).1 hx)
  refine ⟨rows, r1, ?_, fun x hx => (r2 x hx).2, ?_⟩
  · have hnd : (es.map Prod.fst).Nodup := by
      rw [List.Nodup, List.pairwise_map]
      exact h3.imp (fun h hc => by rw [hc] at h; exact List.lt_irrefl _ h)
    rw [r3, List.map_map] at hnd
    have e : rows.map (Prod.fst ∘ fun x : Row => (enc st.sv x.1, (x.2.2.1, x.2.2.2))) = (rows.map Prod.fst).map (enc st.sv) := by
      rw [List.map_map]; rfl
    rw [e] at hnd
    exact List.Pairwise.of_map _ (fun a b hab hc => hab (by rw [hc])) hnd
  · intro x
    constructor
    · intro hx
      obtain ⟨x1, x2⟩ := r2 x hx
      refine ⟨x2, ?_⟩
      have hm : (enc st.sv x.1, (x.2.2.1, x.2.2.2)) ∈ es := by rw [r3]; exact List.mem_map.2 ⟨x, hx, rfl⟩
      obtain ⟨t1, t2, t3, t4⟩ := (h2 _).1 hm
      rw [g1 _ x1] at t1
      rw [g3 _ _ x1 hq] at t2
      exact ⟨t1, by rw [x2]; exact t2, t3, t4⟩
    · rintro ⟨x2, t1, t2, t3, t4⟩
      obtain ⟨o, ho, hs⟩ := (sref_mem os).1 _ _ t1
      have x1 : Has st.sv x.1 := hs ▸ h.hs o ho
      have hm : (enc st.sv x.1, (x.2.2.1, x.2.2.2)) ∈ es := by
        refine (h2 _).2 ⟨?_, ?_, t3, t4⟩
        · rw [g1 _ x1]; exact t1
        · rw [g3 _ _ x1 hq, ← x2]; exact t2
      rw [r3] at hm
      obtain ⟨y, hy, he⟩ := List.mem_map.1 hm
      obtain ⟨y1, y2⟩ := r2 y hy
      simp only [Prod.mk.injEq] at he
      have := (enc_inj h.cs y1 x1).1 he.1
      obtain ⟨a, b, c, d⟩ := x
      obtain ⟨a', b', c', d'⟩ := y
      simp only at this x2 y2 he
      subst this; subst x2; subst y2
      rw [← he.2.1, ← he.2.2]; exact hy

theorem print_rows (fmt : Rat → Str) {st : St} {os : List SOp} (h : Rel st os)
    (hu : ∀ o ∈ os, Clean o.src ∧ Clean o.trg ∧ o.trg ≠ []) (n1 : size st.sv ≤ 254 ^ 3) (n2 : size st.tv ≤ 254 ^ 3)
    (hne : os ≠ []) (hz : ∀ q c, (sref os).t q = some c → c ≠ 0) {m : HatTable.Trie} (hm : m.Perm st.m) :
    ∃ rows : List Row, printTTable fmt { st with m := m } = some (rows.flatMap (fun x => lineOf fmt x ++ ['\n'])) ∧
      (rows.map fun x => (x.1, x.2.1)).Nodup ∧ ∀ x, x ∈ rows ↔ RowOf (sref os) x := by
  have ho := encOp_ok h hu n1 n2
  obtain ⟨g1, g2, g3⟩ := ref_enc h.cs h.ct os h.hs h.ht
  obtain ⟨v1, v2⟩ := HatTable.C158_partial _ ho m (h.m ▸ hm)
  have recd : ∀ o ∈ os, ∃ c, (sref os).t o.trg = some c := by
    intro o ho
    clear v1 v2 g1 g2 g3 hz hne
    clear hu hm
    have : ∀ os : List SOp, ∀ o ∈ os, ∃ c, (sref os).t o.trg = some c := by
      intro os
      induction os using snoc_ind with
      | nil => intro o ho; cases ho
      | snoc os o' ih =>
        intro o ho
        have e2 : sref (os ++ [o']) = SRef.step (sref os) o' := by simp [sref]
        rw [e2]
        by_cases hc : o.trg = o'.trg
        · cases o' <;> (simp only [SRef.step, SOp.trg] at hc ⊢; rw [hc]; simp)
        · have : o ∈ os := by
            rcases List.mem_append.1 ho with ho | ho
            · exact ho
            · rw [List.mem_singleton] at ho; exact absurd (by rw [ho]) hc
          obtain ⟨c, h⟩ := ih o this
          cases o' <;> (simp only [SRef.step, SOp.trg] at hc ⊢; rw [if_neg hc]; exact ⟨c, h⟩)
    exact this os o ho
  unfold printTTable
  cases hv : HatTable.visit m with
  | none =>
    exfalso
    obtain ⟨o, ho'⟩ := List.exists_mem_of_ne_nil _ hne
    obtain ⟨c, hc⟩ := recd o ho'
    rw [← g2 _ (h.ht o ho'), v1.1 hv] at hc
    cases hc
  | some vs =>
    simp only
    obtain ⟨w1, w2, w3, _⟩ := v2 vs hv
    have key : ∀ vs : List (List Nat × Rat), (∀ x ∈ vs, (HatTable.ref (os.map (encOp st.sv st.tv))).t x.1 = some x.2) → (vs.map Prod.fst).Nodup →
        ∃ rows : List Row, printTargets fmt { st with m := m } vs = some (rows.flatMap (fun x => lineOf fmt x ++ ['\n'])) ∧
          (rows.map fun x => (x.1, x.2.1)).Nodup ∧
          ∀ x, x ∈ rows ↔ RowOf (sref os) x ∧ Has st.tv x.2.1 ∧ enc st.tv x.2.1 ∈ vs.map Prod.fst := by
      intro vs hvs hnd
      induction vs with
      | nil => exact ⟨[], rfl, by simp, by simp⟩
      | cons v vs ih =>
        rw [List.map_cons, List.nodup_cons] at hnd
        obtain ⟨rows, r1, r2, r3⟩ := ih (fun x hx => hvs x (List.mem_cons_of_mem _ hx)) hnd.2
        obtain ⟨o, ho', hq⟩ := (ref_mem st.sv st.tv os).2 _ _ (hvs v List.mem_cons_self)
        obtain ⟨_, u2, u3⟩ := hu o ho'
        obtain ⟨es, b, p1, rows', p2, p3, p4, p5⟩ := print_one fmt h hu n1 n2 hm (h.ht o ho') u2 u3
        refine ⟨rows' ++ rows, ?_, ?_, ?_⟩
        · rw [printTargets, r1, ← hq]
          simp only
          rw [p1]
          simp only [p2, List.flatMap_append]
        · rw [List.map_append, List.nodup_append]
          refine ⟨?_, r2, ?_⟩
          · have : (rows'.map fun x => (x.1, x.2.1)) = (rows'.map Prod.fst).map fun p => (p, o.trg) := by
              rw [List.map_map]
              exact List.map_congr_left fun x hx => by simp [p4 x hx]
            rw [this, List.Nodup, List.pairwise_map]
            exact List.Pairwise.imp (fun hab hc => hab (Prod.mk.inj hc).1) p3
          · intro a ha b hb hab
            subst hab
            obtain ⟨x, hx, rfl⟩ := List.mem_map.1 ha
            obtain ⟨y, hy, he⟩ := List.mem_map.1 hb
            obtain ⟨_, y2, y3⟩ := (r3 y).1 hy
            simp only [Prod.mk.injEq] at he
            rw [he.2, p4 x hx, hq] at y3
            exact hnd.1 y3
        · intro x
          rw [List.mem_append, p5, r3, List.map_cons, List.mem_cons, ← hq]
          constructor
          · rintro (⟨h1, h2⟩ | ⟨h1, h2, h3⟩)
            · exact ⟨h2, by rw [h1]; exact h.ht o ho', .inl (by rw [h1])⟩
            · exact ⟨h1, h2, .inr h3⟩
          · rintro ⟨h1, h2, h3 | h3⟩
            · exact .inl ⟨(enc_inj h.ct h2 (h.ht o ho')).1 h3, h1⟩
            · exact .inr ⟨h1, h2, h3⟩
    obtain ⟨rows, r1, r2, r3⟩ := key vs w1 w2
    refine ⟨rows, r1, r2, fun x => ?_⟩
    rw [r3]
    refine ⟨fun hh => hh.1, fun hh => ?_⟩
    obtain ⟨o, ho', _, ht⟩ := (sref_mem os).2.2 _ _ _ hh.2.1
    have hq : Has st.tv x.2.1 := ht ▸ h.ht o ho'
    obtain ⟨c, hc⟩ := recd o ho'
    have hcz := hz _ _ hc
    rw [← g2 _ (h.ht o ho')] at hc
    refine ⟨hh, hq, ?_⟩
    rw [← ht]
    exact List.mem_map.2 ⟨_, w3 _ _ hc hcz, rfl⟩

/-! ### Loading what was printed -/

/-- The reference after loading rows. -/
theorem sref_rows (fs : Rat → Rat) (rows : List Row) (hd : (rows.map fun x => (x.1, x.2.1)).Nodup)
    (hf : ∀ x ∈ rows, ∀ y ∈ rows, x.1 = y.1 → x.2.2.1 = y.2.2.1) :
    let r := sref (rows.map fun x => .add x.1 x.2.1 (fs x.2.2.1) (fs x.2.2.2))
    (∀ x ∈ rows, r.st x.1 x.2.1 = some (fs x.2.2.2) ∧ r.s x.1 = some (fs x.2.2.1)) ∧
    (∀ q, (r.t q).getD 0 = rsum ((rows.filter fun x => decide (x.2.1 = q)).map fun x => fs x.2.2.2)) := by
  induction rows using snoc_ind with
  | nil => exact ⟨fun x hx => (by cases hx), fun q => rfl⟩
  | snoc rows y ih =>
    simp only [List.map_append, List.map_cons, List.map_nil] at hd ⊢
    rw [List.nodup_append] at hd
    obtain ⟨d1, _, d3⟩ := hd
    obtain ⟨i1, i2⟩ := ih d1 (fun a ha b hb => hf a (List.mem_append_left _ ha) b (List.mem_append_left _ hb))
    have e2 : sref ((rows.map fun x : Row => SOp.add x.1 x.2.1 (fs x.2.2.1) (fs x.2.2.2)) ++ [.add y.1 y.2.1 (fs y.2.2.1) (fs y.2.2.2)]) =
        SRef.step (sref (rows.map fun x : Row => SOp.add x.1 x.2.1 (fs x.2.2.1) (fs x.2.2.2))) (.add y.1 y.2.1 (fs y.2.2.1) (fs y.2.2.2)) := by
      simp [sref]
    rw [e2]
    refine ⟨?_, ?_⟩
    · intro x hx
      simp only [SRef.step]
      rcases List.mem_append.1 hx with hx' | hx'
      · have hne : ¬ (x.1 = y.1 ∧ x.2.1 = y.2.1) := by
          rintro ⟨h1, h2⟩
          exact d3 _ (List.mem_map.2 ⟨x, hx', rfl⟩) _ (List.mem_singleton.2 rfl) (by rw [h1, h2])
        rw [if_neg hne]
        refine ⟨(i1 x hx').1, ?_⟩
        split
        · next h1 => rw [hf x hx y (by simp) h1]
        · exact (i1 x hx').2
      · rw [List.mem_singleton] at hx'
        subst hx'
        simp
    · intro q
      simp only [SRef.step, List.filter_append, List.map_append]
      have ra : ∀ a b : List Rat, rsum (a ++ b) = rsum a + rsum b := by
        intro a b
        induction a with
        | nil => exact (Rat.zero_add _).symm
        | cons x a ih => simp only [rsum, List.cons_append, List.foldr_cons] at ih ⊢; rw [ih]; grind
      rw [ra, ← i2 q]
      by_cases hq : y.2.1 = q
      · subst hq
        simp only [if_true, Option.getD_some, List.filter_cons, List.filter_nil, decide_true, List.map_cons, List.map_nil, rsum, List.foldr_cons, List.foldr_nil]
        rw [Rat.add_zero]
      · have hq' : ¬ q = y.2.1 := fun hc => hq hc.symm
        simp only [hq', if_false, List.filter_cons, List.filter_nil, hq, decide_false, Bool.false_eq_true, List.map_nil, rsum, List.foldr_nil]
        rw [Rat.add_zero]

theorem line_chars {fmt : Rat → Str} (hf : ∀ x, Word (fmt x)) {x : Row} (h1 : ∀ w ∈ x.1, FWord w) (h2 : ∀ w ∈ x.2.1, FWord w) :
    ∀ c ∈ lineOf fmt x, c ≠ '\n' ∧ c ≠ '\x00' := by
  apply SentHandler.line_join
  have hb : Word bars := ⟨by simp [bars], by decide⟩
  intro w hw
  simp only [List.mem_append, List.mem_cons, List.not_mem_nil, or_false] at hw
  rcases hw with (hw | rfl | hw) | rfl | rfl | rfl
  · exact (h1 w hw).1
  · exact hb
  · exact (h2 w hw).1
  · exact hb
  · exact hf _
  · exact hf _

/-- Loading a printed file. -/
theorem load_rows (fmt : Rat → Str) (atof : Str → Rat) (hf : ∀ x, Word (fmt x)) (rows : List Row)
    (h : ∀ x ∈ rows, (∀ w ∈ x.1, FWord w) ∧ (∀ w ∈ x.2.1, FWord w) ∧ x.1 ≠ [] ∧ x.2.1 ≠ []) (st : St) :
    loadTTable atof st (rows.flatMap fun x => lineOf fmt x ++ ['\n']) =
      (srun { st with m := [] } (rows.map fun x => .add x.1 x.2.1 (atof (fmt x.2.2.1)) (atof (fmt x.2.2.2))), true) := by
  have e : (rows.flatMap fun x => lineOf fmt x ++ ['\n']) = (rows.map (lineOf fmt)).flatMap fun l => l ++ ['\n'] := by
    rw [List.flatMap_map]
  have hl : ∀ l ∈ rows.map (lineOf fmt), ∀ c ∈ l, c ≠ '\n' ∧ c ≠ '\x00' := by
    intro l hl
    obtain ⟨x, hx, rfl⟩ := List.mem_map.1 hl
    exact line_chars hf (h x hx).1 (h x hx).2.1
  have hlen : ∀ ls : List Str, ls.length ≤ (ls.flatMap (fun l => l ++ ['\n'])).length := by
    intro ls
    induction ls with
    | nil => simp
    | cons l ls ih => simp only [List.flatMap_cons, List.length_append, List.length_cons, List.length_nil]; omega
  unfold loadTTable
  rw [e, Awk.C42_lines_partial _ hl _ (Nat.lt_succ_of_le (hlen _))]
  cases rows with
  | nil => rfl
  | cons x rows =>
    obtain ⟨h1, h2, h3, h4⟩ := h x List.mem_cons_self
    have hfl : Awk.fields ' ' (lineOf fmt x) = x.1 ++ bars :: x.2.1 ++ [bars, fmt x.2.2.1, fmt x.2.2.2] := by
      apply fields_join
      have hb : Word bars := ⟨by simp [bars], by decide⟩
      intro w hw
      simp only [List.mem_append, List.mem_cons, List.not_mem_nil, or_false] at hw
      rcases hw with (hw | rfl | hw) | rfl | rfl | rfl
      · exact (h1 w hw).1
      · exact hb
      · exact (h2 w hw).1
      · exact hb
      · exact hf _
      · exact hf _
    have hc : isCacheHeader (lineOf fmt x) = false := by
      unfold isCacheHeader
      rw [Awk.C41_NF, hfl]
      have : 0 < x.1.length := List.length_pos_iff.2 h3
      have e : ((x.1 ++ bars :: x.2.1 ++ [bars, fmt x.2.2.1, fmt x.2.2.2]).length == 4) = false := by
        simp; omega
      rw [e]; rfl
    simp only [List.map_cons]
    rw [if_neg (by rw [hc]; simp)]
    have := loadLines_spec fmt atof hf (x :: rows) h { st with m := [] }
    simp only [List.map_cons] at this
    rw [this]

/-! ### C161 -/

/-- The phrases of the calls are not empty and their words can be written. -/
def Storable (os : List SOp) : Prop :=
  ∀ o ∈ os, (∀ w ∈ o.src, FWord w) ∧ (∀ w ∈ o.trg, FWord w) ∧ o.src ≠ [] ∧ o.trg ≠ []

theorem clean_of {p : SPhrase} (h : ∀ w ∈ p, FWord w) : Clean p := fun hm => (h _ hm).2.2 rfl

/-- **C161 (partial).** Take any model built by calls with writable words, with a nonempty table in which no target phrase
has count zero, whatever the iteration order of its table. Its table can be printed, and the file can be loaded in any
model `srun clear pre`; the load succeeds and the previous table is lost. Afterwards a pair has the count that was
printed for it, and any other pair has count zero; a source phrase of a kept pair has the count that was printed for it,
and any other has count zero; the count of a target phrase is the sum of the printed counts of its kept pairs. A pair is
kept when its count and that of its source phrase are not negligible. Missing with respect to `C161_full`: the counts
below `EPSILON` are lost. -/
theorem C161_print_load_partial (fmt : Rat → Str) (atof : Str → Rat) (hf : ∀ x, Word (fmt x)) (os pre : List SOp) (ho : Storable os)
    (hne : os ≠ []) (hz : ∀ q c, (sref os).t q = some c → c ≠ 0)
    (n1 : size (srun clear os).sv ≤ 254 ^ 3) (n2 : size (srun clear os).tv ≤ 254 ^ 3)
    (m : HatTable.Trie) (hm : m.Perm (srun clear os).m) :
    ∃ file st, printTTable fmt { srun clear os with m := m } = some file ∧ loadTTable atof (srun clear pre) file = (st, true) ∧
      (size st.sv ≤ 254 ^ 3 → size st.tv ≤ 254 ^ 3 → ∀ p q, Clean p → Clean q → q ≠ [] →
        (Kept (sref os) p q → cHSrcHTrg st p q = atof (fmt (((sref os).st p q).getD 0))) ∧
        (¬ Kept (sref os) p q → cHSrcHTrg st p q = 0) ∧
        ((∃ q', Kept (sref os) p q') → cHSrc st p = atof (fmt (((sref os).s p).getD 0))) ∧
        ((¬ ∃ q', Kept (sref os) p q') → cHSrc st p = 0) ∧
        ∃ ps : List SPhrase, ps.Nodup ∧ (∀ p', p' ∈ ps ↔ Kept (sref os) p' q) ∧
          cHTrg st q = rsum (ps.map fun p' => atof (fmt (((sref os).st p' q).getD 0)))) := by
  have hrel : Rel (srun clear os) os := by simpa using rel_run rel_clear os
  have hu : ∀ o ∈ os, Clean o.src ∧ Clean o.trg ∧ o.trg ≠ [] := fun o hm =>
    ⟨clean_of (ho o hm).1, clean_of (ho o hm).2.1, (ho o hm).2.2.2⟩
  obtain ⟨rows, r1, r2, r3⟩ := print_rows fmt hrel hu n1 n2 hne hz hm
  have hrow : ∀ x ∈ rows, (∀ w ∈ x.1, FWord w) ∧ (∀ w ∈ x.2.1, FWord w) ∧ x.1 ≠ [] ∧ x.2.1 ≠ [] := by
    intro x hx
    obtain ⟨_, h2, _⟩ := (r3 x).1 hx
    obtain ⟨o, hom, h3, h4⟩ := (sref_mem os).2.2 _ _ _ h2
    rw [← h3, ← h4]; exact ho o hom
  have hload := load_rows fmt atof hf rows hrow (srun clear pre)
  refine ⟨_, _, r1, hload, ?_⟩
  intro k1 k2 p q hp hq hqn
  let fs : Rat → Rat := fun x => atof (fmt x)
  have hpre : Rel (srun clear pre) pre := by simpa using rel_run rel_clear pre
  have h0 : Rel { srun clear pre with m := [] } [] :=
    ⟨hpre.cs, hpre.ct, hpre.us, hpre.ut, (by intro o ho; cases ho), (by intro o ho; cases ho), rfl⟩
  have h1 := rel_run h0 (rows.map fun x => .add x.1 x.2.1 (fs x.2.2.1) (fs x.2.2.2))
  rw [List.nil_append] at h1
  have hu1 : ∀ o ∈ (rows.map fun x : Row => SOp.add x.1 x.2.1 (fs x.2.2.1) (fs x.2.2.2)), Clean o.src ∧ Clean o.trg ∧ o.trg ≠ [] := by
    intro o hom
    obtain ⟨x, hx, rfl⟩ := List.mem_map.1 hom
    exact ⟨clean_of (hrow x hx).1, clean_of (hrow x hx).2.1, (hrow x hx).2.2.2⟩
  obtain ⟨c1, c2, c3⟩ := counts h1 hu1 k1 k2 p q hp hq hqn
  obtain ⟨s1, s2⟩ := sref_rows fs rows r2 (by
    intro x hx y hy hxy
    have e1 := ((r3 x).1 hx).1
    have e2 := ((r3 y).1 hy).1
    rw [hxy, e2] at e1
    injection e1 with e1; exact e1.symm)
  have kept : ∀ p q, Kept (sref os) p q ↔ ∃ x ∈ rows, x.1 = p ∧ x.2.1 = q := by
    intro p q
    constructor
    · rintro ⟨cs, c, a1, a2, a3, a4⟩
      exact ⟨(p, q, cs, c), (r3 _).2 ⟨a1, a2, a3, a4⟩, rfl, rfl⟩
    · rintro ⟨x, hx, rfl, rfl⟩
      obtain ⟨a1, a2, a3, a4⟩ := (r3 x).1 hx
      exact ⟨_, _, a1, a2, a3, a4⟩
  refine ⟨?_, ?_, ?_, ?_, ?_⟩
  · intro hk
    obtain ⟨x, hx, rfl, rfl⟩ := (kept p q).1 hk
    rw [c3, (s1 x hx).1, ((r3 x).1 hx).2.1]; rfl
  · intro hk
    rw [c3]
    cases hc : (sref (rows.map fun x : Row => SOp.add x.1 x.2.1 (fs x.2.2.1) (fs x.2.2.2))).st p q with
    | none => rfl
    | some c =>
      exfalso
      obtain ⟨o, hom, e1, e2⟩ := (sref_mem _).2.2 _ _ _ hc
      obtain ⟨x, hx, rfl⟩ := List.mem_map.1 hom
      exact hk ((kept p q).2 ⟨x, hx, e1, e2⟩)
  · rintro ⟨q', hk⟩
    obtain ⟨x, hx, rfl, rfl⟩ := (kept p q').1 hk
    rw [c1, (s1 x hx).2, ((r3 x).1 hx).1]; rfl
  · intro hk
    rw [c1]
    cases hc : (sref (rows.map fun x : Row => SOp.add x.1 x.2.1 (fs x.2.2.1) (fs x.2.2.2))).s p with
    | none => rfl
    | some c =>
      exfalso
      obtain ⟨o, hom, e1⟩ := (sref_mem _).1 _ _ hc
      obtain ⟨x, hx, rfl⟩ := List.mem_map.1 hom
      exact hk ⟨x.2.1, (kept p _).2 ⟨x, hx, e1, rfl⟩⟩
  · refine ⟨(rows.filter fun x => decide (x.2.1 = q)).map fun x => x.1, ?_, ?_, ?_⟩
    · have e : ((rows.filter fun x => decide (x.2.1 = q)).map fun x => (x.1, x.2.1)) =
          ((rows.filter fun x => decide (x.2.1 = q)).map fun x => x.1).map fun p' => (p', q) := by
        rw [List.map_map]
        apply List.map_congr_left
        intro x hx
        have := (List.mem_filter.1 hx).2
        simp only [decide_eq_true_eq] at this
        simp [this]
      have hnd : ((rows.filter fun x => decide (x.2.1 = q)).map fun x => (x.1, x.2.1)).Nodup :=
        List.Nodup.sublist (List.Sublist.map _ List.filter_sublist) r2
      rw [e] at hnd
      exact List.Pairwise.of_map _ (fun a b hab hc => hab (by rw [hc])) hnd
    · intro p'
      rw [kept, List.mem_map]
      constructor
      · rintro ⟨x, hx, rfl⟩
        obtain ⟨hx, hd⟩ := List.mem_filter.1 hx
        exact ⟨x, hx, rfl, by simpa using hd⟩
      · rintro ⟨x, hx, rfl, rfl⟩
        exact ⟨x, List.mem_filter.2 ⟨hx, by simp⟩, rfl⟩
    · rw [c2, s2 q, List.map_map]
      congr 1
      apply List.map_congr_left
      intro x hx
      obtain ⟨hx, hd⟩ := List.mem_filter.1 hx
      have hd' : x.2.1 = q := by simpa using hd
      simp only [Function.comp, ← hd', ((r3 x).1 hx).2.1, Option.getD_some, fs]

/-! Models with increments only. -/

def sincrs (l : List (SPhrase × SPhrase × Rat)) : List SOp := l.map fun x => .incr x.1 x.2.1 x.2.2

/-- The total of the increments given to the pairs selected. -/
def stotal (sel : SPhrase → SPhrase → Bool) (l : List (SPhrase × SPhrase × Rat)) : Rat :=
  rsum (l.map fun x => if sel x.1 x.2.1 then x.2.2 else 0)

theorem rsum_append (a b : List Rat) : rsum (a ++ b) = rsum a + rsum b := by
  induction a with
  | nil => exact (Rat.zero_add _).symm
  | cons x a ih => simp only [rsum, List.cons_append, List.foldr_cons] at ih ⊢; rw [ih]; grind

theorem sref_sincrs (l : List (SPhrase × SPhrase × Rat)) (p q : SPhrase) :
    ((sref (sincrs l)).s p = if (∃ x ∈ l, x.1 = p) then some (stotal (fun a _ => decide (a = p)) l) else none) ∧
    ((sref (sincrs l)).t q = if (∃ x ∈ l, x.2.1 = q) then some (stotal (fun _ b => decide (b = q)) l) else none) ∧
    ((sref (sincrs l)).st p q = if (∃ x ∈ l, x.1 = p ∧ x.2.1 = q) then some (stotal (fun a b => decide (a = p ∧ b = q)) l) else none) := by
  have zero : ∀ (sel : SPhrase → SPhrase → Bool) (l : List (SPhrase × SPhrase × Rat)), (∀ x ∈ l, sel x.1 x.2.1 = false) → stotal sel l = 0 := by
    intro sel l h
    unfold stotal
    rw [show (l.map fun x => if sel x.1 x.2.1 = true then x.2.2 else 0) = l.map fun _ => (0 : Rat) from
      List.map_congr_left fun x hx => by rw [h x hx]; simp, rsum_zero]
  have snoc : ∀ (sel : SPhrase → SPhrase → Bool) (l : List (SPhrase × SPhrase × Rat)) (x : SPhrase × SPhrase × Rat), stotal sel (l ++ [x]) =
      stotal sel l + if sel x.1 x.2.1 then x.2.2 else 0 := by
    intro sel l x
    unfold stotal
    rw [List.map_append, rsum_append]
    simp only [List.map_cons, List.map_nil, rsum, List.foldr_cons, List.foldr_nil, Rat.add_zero]
  induction l using snoc_ind generalizing p q with
  | nil => exact ⟨rfl, rfl, rfl⟩
  | snoc l x ih =>
    have e : sref (sincrs (l ++ [x])) = SRef.step (sref (sincrs l)) (.incr x.1 x.2.1 x.2.2) := by simp [sref, sincrs]
    rw [e]
    simp only [SRef.step, snoc]
    refine ⟨?_, ?_, ?_⟩
    · by_cases hp : p = x.1
      · subst hp
        rw [if_pos rfl, if_pos ⟨x, by simp, rfl⟩, (ih x.1 q).1]
        simp only [decide_true, if_true]
        split
        · rfl
        · next h => rw [zero _ l (fun y hy => by simpa using fun hc => h ⟨y, hy, hc⟩)]; rfl
      · have hp' : ¬ x.1 = p := fun hc => hp hc.symm
        have hiff : (∃ y ∈ l ++ [x], y.1 = p) ↔ ∃ y ∈ l, y.1 = p := by
          constructor
          · rintro ⟨y, hy, hc⟩
            rcases List.mem_append.1 hy with hy | hy
            · exact ⟨y, hy, hc⟩
            · rw [List.mem_singleton] at hy; subst hy; exact absurd hc hp'
          · rintro ⟨y, hy, hc⟩; exact ⟨y, List.mem_append_left _ hy, hc⟩
        rw [if_neg hp, (ih p q).1]
        simp only [hiff, hp', decide_false, Bool.false_eq_true, if_false, Rat.add_zero]
    · by_cases hp : q = x.2.1
      · subst hp
        rw [if_pos rfl, if_pos ⟨x, by simp, rfl⟩, (ih p x.2.1).2.1]
        simp only [decide_true, if_true]
        split
        · rfl
        · next h => rw [zero _ l (fun y hy => by simpa using fun hc => h ⟨y, hy, hc⟩)]; rfl
      · have hp' : ¬ x.2.1 = q := fun hc => hp hc.symm
        have hiff : (∃ y ∈ l ++ [x], y.2.1 = q) ↔ ∃ y ∈ l, y.2.1 = q := by
          constructor
          · rintro ⟨y, hy, hc⟩
            rcases List.mem_append.1 hy with hy | hy
            · exact ⟨y, hy, hc⟩
            · rw [List.mem_singleton] at hy; subst hy; exact absurd hc hp'
          · rintro ⟨y, hy, hc⟩; exact ⟨y, List.mem_append_left _ hy, hc⟩
        rw [if_neg hp, (ih p q).2.1]
        simp only [hiff, hp', decide_false, Bool.false_eq_true, if_false, Rat.add_zero]
    · by_cases hp : p = x.1 ∧ q = x.2.1
      · obtain ⟨rfl, rfl⟩ := hp
        rw [if_pos ⟨rfl, rfl⟩, if_pos ⟨x, by simp, rfl, rfl⟩, (ih x.1 x.2.1).2.2]
        simp only [and_self, decide_true, if_true]
        split
        · rfl
        · next h => rw [zero _ l (fun y hy => by simpa using fun hc hd => h ⟨y, hy, hc, hd⟩)]; rfl
      · have hp' : ¬ (x.1 = p ∧ x.2.1 = q) := fun hc => hp ⟨hc.1.symm, hc.2.symm⟩
        have hiff : (∃ y ∈ l ++ [x], y.1 = p ∧ y.2.1 = q) ↔ ∃ y ∈ l, y.1 = p ∧ y.2.1 = q := by
          constructor
          · rintro ⟨y, hy, hc⟩
            rcases List.mem_append.1 hy with hy | hy
            · exact ⟨y, hy, hc⟩
            · rw [List.mem_singleton] at hy; subst hy; exact absurd hc hp'
          · rintro ⟨y, hy, hc⟩; exact ⟨y, List.mem_append_left _ hy, hc⟩
        rw [if_neg hp, (ih p q).2.2]
        simp only [hiff, hp', decide_false, Bool.false_eq_true, if_false, Rat.add_zero]

end Thot.PhrTrain
