import Verif.AligFile.Cont
/-! C166, C167: exhaustive operations between alignment files. -/
namespace Thot.AligFile
open Thot.WordAlig (Mat)
open Thot.Vocab (showNat atoi)
open Thot.SentHandler (joinWords Word)

/-! ### Specification -/

def pairOf (e : Entry) : Sent × Sent := (e.ns, e.t)

def turned (tr : Bool) (e : Entry) : Entry := if tr then flipEntry e else e

/-- The matrices of the entries with sentence pair `p`, in order. -/
def matsOf (p : Sent × Sent) (es : List Entry) : List Mat := (es.filter fun e => pairOf e = p).map fun e => norm e.mat

/-- The operation is done with a list of matrices, one after another. -/
inductive Folded (o : Opn) : Mat → List Mat → Mat → Prop
  | nil (A : Mat) : Folded o A [] A
  | cons {A B R S : Mat} {Bs : List Mat} : OpMeaning o A B R → Folded o R Bs S → Folded o A (B :: Bs) S

/-- What the lines of a file of operations do with the matrix of the sentence pair `p`: each operation is done with the matrices of all
the entries of the other file that have the same sentence pair; the other lines do nothing. -/
inductive PairOps (fmt : Rat → Str) (fs : Str → Option Str) (p : Sent × Sent) : Mat → List OLine → Mat → Prop
  | nil (A : Mat) : PairOps fmt fs p A [] A
  | skip {A ls R} (l : OLine) : isOp l = false → PairOps fmt fs p A ls R → PairOps fmt fs p A (l :: ls) R
  | op {A ls R} (o : Opn) (name : Str) (tr : Bool) (bs : List Entry) (B : Mat) : (printAll fmt bs = fs name ∧ ∀ e ∈ bs, EntryOk e) →
      Folded o A (matsOf p (bs.map (turned tr))) B → PairOps fmt fs p B ls R → PairOps fmt fs p A (.op o name tr :: ls) R

/-- The compact result: one entry for each different sentence pair, with the number of times it was in the file and the matrix that
results from the operations on its first matrix. -/
def CompactResult (fmt : Rat → Str) (fs : Str → Option Str) (as : List Entry) (ls : List OLine) (rs : List Entry) : Prop :=
  (rs.map pairOf).Nodup ∧ (∀ p, p ∈ rs.map pairOf ↔ p ∈ as.map pairOf) ∧
  ∀ r ∈ rs, r.reps = ((matsOf (pairOf r) as).length : Nat) ∧
    ∃ A, (matsOf (pairOf r) as).head? = some A ∧ PairOps fmt fs (pairOf r) A ls r.mat

/-- The result that is not compact: the entries of the file in order, the same matrix for the same sentence pair. -/
def PlainResult (fmt : Rat → Str) (fs : Str → Option Str) (as : List Entry) (ls : List OLine) (rs : List Entry) : Prop :=
  rs.map pairOf = as.map pairOf ∧ (∀ r ∈ rs, ∀ r' ∈ rs, pairOf r = pairOf r' → r.mat = r'.mat) ∧
  ∀ r ∈ rs, ∃ A, (matsOf (pairOf r) as).head? = some A ∧ PairOps fmt fs (pairOf r) A ls r.mat

/-- The format of the counts. -/
def natFmt (q : Rat) : Str := showNat q.num.toNat

/-- A file with headers `# Sentence <n>`. -/
def printNumbered : Nat → List Entry → Option Str
  | _, [] => some []
  | n, e :: es => match printGiza ("# Sentence ".toList ++ showNat n) e.ns e.t e.mat, printNumbered (n + 1) es with
    | some a, some b => some (a ++ b)
    | _, _ => none

/-! ### Reading and operating -/

def DimOk (M : Sent × Sent → Option (Mat × Nat)) : Prop :=
  ∀ p A n, M p = some (A, n) → p.1 ≠ [] ∧ A.I = p.1.length - 1 ∧ A.J = p.2.length

def SizeOk (e : Entry) : Prop := e.ns ≠ [] ∧ e.mat.I = e.ns.length - 1 ∧ e.mat.J = e.t.length

theorem turned_size (tr : Bool) (e : Entry) (h : EntryOk e) : SizeOk (turned tr e) := by
  cases tr with
  | true => exact ⟨by simp [turned, flipEntry], flip_sizes e h⟩
  | false => exact ⟨h.1, h.2.2.2.1, h.2.2.2.2.1⟩

theorem turn_ext (tr : Bool) {x : Ext} {e : Entry} (h : ExtOf x e) : ExtOf (turn tr x) (turned tr e) := by
  cases tr with
  | true => exact transpose_ext h
  | false => exact h

theorem turn_inp (tr : Bool) (x : Ext) : (turn tr x).inp = x.inp := by cases tr <;> rfl

/-- A sentence pair is added. -/
def addM (M : Sent × Sent → Option (Mat × Nat)) (e : Entry) : Sent × Sent → Option (Mat × Nat) := fun p =>
  if p = pairOf e then some (match M (pairOf e) with | none => (norm e.mat, 1) | some q => (q.1, q.2 + 1)) else M p

theorem addM_dim {M : Sent × Sent → Option (Mat × Nat)} (h : DimOk M) (e : Entry) (he : SizeOk e) : DimOk (addM M e) := by
  intro p A n hp
  unfold addM at hp
  split at hp
  · rename_i hpe
    injection hp with hp
    cases hM : M (pairOf e) with
    | none =>
      rw [hM] at hp
      injection hp with h1 h2
      rw [hpe, ← h1]; exact he
    | some q =>
      rw [hM] at hp
      injection hp with h1 h2
      rw [hpe, ← h1]
      exact h (pairOf e) q.1 q.2 hM
  · exact h p A n hp

theorem extract_eq (atof : Str → Rat) (fmt : Rat → Str) (hf : ∀ x, Word (fmt x)) (tr : Bool) (as : List Entry) (ha : ∀ e ∈ as, EntryOk e) :
    ∀ (fa : Str), printAll fmt as = some fa → ∀ (x : Ext) (c : Cont) (M : Sent × Sent → Option (Mat × Nat)) (fuel : Nat), x.inp = fa → Holds c M →
      DimOk M → as.length < fuel → ∃ c', extractLoop atof tr fuel x c = some c' ∧ Holds c' ((as.map (turned tr)).foldl addM M) ∧
        DimOk ((as.map (turned tr)).foldl addM M) := by
  induction as with
  | nil =>
    intro fa pa x c M fuel hx hc hd hfu
    cases fuel with
    | zero => simp at hfu
    | succ fuel =>
      injection pa with pa
      refine ⟨c, ?_, hc, hd⟩
      rw [extractLoop, next_nil atof x (by rw [hx, ← pa])]
      rfl
  | cons e es ih =>
    intro fa pa x c M fuel hx hc hd hfu
    cases fuel with
    | zero => simp at hfu
    | succ fuel =>
      obtain ⟨f', pf', hn⟩ := next_cons fmt atof hf e es ha fa pa
      obtain ⟨y, hy, ey, _, iy⟩ := hn x hx
      obtain ⟨t1, t2, t3⟩ := turn_ext tr ey
      have hadd := holds_add hc (turn tr y)
      rw [t1, t2, t3] at hadd
      obtain ⟨c', h1, h2, h3⟩ := ih (fun z hz => ha z (List.mem_cons_of_mem _ hz)) f' pf' (turn tr y) (addEntry c (turn tr y))
        (addM M (turned tr e)) fuel (by rw [turn_inp, iy]) hadd (addM_dim hd _ (turned_size tr e (ha e List.mem_cons_self)))
        (by simp at hfu; omega)
      refine ⟨c', ?_, h2, h3⟩
      rw [extractLoop, hy]
      exact h1

theorem fold_addM (es : List Entry) (M : Sent × Sent → Option (Mat × Nat)) (p : Sent × Sent) :
    es.foldl addM M p = match M p with
      | some q => some (q.1, q.2 + (matsOf p es).length)
      | none => match matsOf p es with
        | [] => none
        | A :: r => some (A, r.length + 1) := by
  induction es generalizing M with
  | nil =>
    rw [List.foldl_nil, show matsOf p [] = [] from rfl]
    cases hM : M p with
    | none => rfl
    | some q => rfl
  | cons e es ih =>
    rw [List.foldl_cons, ih]
    by_cases hp : pairOf e = p
    · have e1 : matsOf p (e :: es) = norm e.mat :: matsOf p es := by
        unfold matsOf; rw [List.filter_cons_of_pos (by simpa using hp), List.map_cons]
      rw [e1]
      unfold addM
      rw [if_pos hp.symm, hp]
      cases hM : M p with
      | none => simp only; rw [Nat.add_comm]
      | some q => simp only [List.length_cons]; rw [show q.2 + 1 + (matsOf p es).length = q.2 + ((matsOf p es).length + 1) by omega]
    · have e1 : matsOf p (e :: es) = matsOf p es := by
        unfold matsOf; rw [List.filter_cons_of_neg (by simpa using hp)]
      rw [e1]
      unfold addM
      rw [if_neg (fun hc => hp hc.symm)]

theorem opLoopC_eq (atof : Str → Rat) (fmt : Rat → Str) (hf : ∀ x, Word (fmt x)) (o : Opn) (tr : Bool) (bs : List Entry)
    (hb : ∀ e ∈ bs, EntryOk e) : ∀ (fb : Str), printAll fmt bs = some fb → ∀ (c : Cont) (M : Sent × Sent → Option (Mat × Nat)), Holds c M →
      DimOk M → ∃ N c' M', (∀ mf fuel x, N ≤ mf → bs.length < fuel → x.inp = fb → opLoopC atof mf o tr fuel x c = some c') ∧ Holds c' M' ∧
        DimOk M' ∧ ∀ p, (M p = none → M' p = none) ∧
          ∀ A n, M p = some (A, n) → ∃ R, M' p = some (R, n) ∧ Folded o A (matsOf p (bs.map (turned tr))) R := by
  induction bs with
  | nil =>
    intro fb pb c M hc hd
    injection pb with pb
    refine ⟨0, c, M, ?_, hc, hd, fun p => ⟨id, fun A n h => ⟨A, h, .nil A⟩⟩⟩
    intro mf fuel x _ hfu hx
    cases fuel with
    | zero => simp at hfu
    | succ fuel => rw [opLoopC, next_nil atof x (by rw [hx, ← pb])]; rfl
  | cons e es ih =>
    intro fb pb c M hc hd
    obtain ⟨f', pf', hn⟩ := next_cons fmt atof hf e es hb fb pb
    have hsz := turned_size tr e (hb e List.mem_cons_self)
    let x0 : Ext := ⟨(turned tr e).ns, (turned tr e).t, norm (turned tr e).mat, 0, [], []⟩
    obtain ⟨N, R, c', h1, h2, h3⟩ := holds_op hc o x0 (by
      intro A n hA
      obtain ⟨_, d1, d2⟩ := hd _ A n hA
      exact ⟨d1.trans hsz.2.1.symm, d2.trans hsz.2.2.symm⟩)
    have h1' : ∀ mf, N ≤ mf → ∀ y, ExtOf y e → opEntry mf o c (turn tr y) = some c' := by
      intro mf hm y hy
      obtain ⟨t1, t2, t3⟩ := turn_ext tr hy
      rw [← h1 mf hm]
      unfold opEntry
      rw [t1, t2, t3]
    have hd' : DimOk (fun p => if p = (x0.ns, x0.t) then (M p).map (fun q => (R, q.2)) else M p) := by
      intro p A n hp
      simp only at hp
      split at hp
      · rename_i hpe
        cases hM : M p with
        | none => rw [hM] at hp; cases hp
        | some q =>
          rw [hM] at hp
          injection hp with hp
          injection hp with e1 e2
          obtain ⟨d0, d1, d2⟩ := hd p q.1 q.2 hM
          have := h2 q.1 q.2 (by rw [← hpe]; exact hM)
          rw [← e1]
          exact ⟨d0, this.1.trans d1, this.2.1.trans d2⟩
      · exact hd p A n hp
    obtain ⟨N', c'', M', g1, g2, g3, g4⟩ := ih (fun z hz => hb z (List.mem_cons_of_mem _ hz)) f' pf' c' _ h3 hd'
    refine ⟨max N N', c'', M', ?_, g2, g3, ?_⟩
    · intro mf fuel x hm hfu hx
      cases fuel with
      | zero => simp at hfu
      | succ fuel =>
        obtain ⟨y, hy, ey, _, iy⟩ := hn x hx
        rw [opLoopC, hy]
        simp only [if_true]
        rw [h1' mf (by omega) y ey]
        exact g1 mf fuel (turn tr y) (by omega) (by simp at hfu; omega) (by rw [turn_inp, iy])
    · intro p
      obtain ⟨k1, k2⟩ := g4 p
      by_cases hp : pairOf (turned tr e) = p
      · have hp' : p = (x0.ns, x0.t) := hp.symm
        have e1 : matsOf p ((e :: es).map (turned tr)) = norm (turned tr e).mat :: matsOf p (es.map (turned tr)) := by
          unfold matsOf; rw [List.map_cons, List.filter_cons_of_pos (by simpa using hp), List.map_cons]
        rw [e1]
        simp only [if_pos hp'] at k1 k2
        constructor
        · intro hM; exact k1 (by rw [hM]; rfl)
        · intro A n hM
          obtain ⟨S, s1, s2⟩ := k2 R n (by rw [hM]; rfl)
          exact ⟨S, s1, .cons (h2 A n (by rw [← hp']; exact hM)) s2⟩
      · have hp' : ¬ p = (x0.ns, x0.t) := fun hc => hp hc.symm
        have e1 : matsOf p ((e :: es).map (turned tr)) = matsOf p (es.map (turned tr)) := by
          unfold matsOf; rw [List.map_cons, List.filter_cons_of_neg (by simpa using hp)]
        rw [e1]
        simp only [if_neg hp'] at k1 k2
        exact ⟨k1, k2⟩

theorem runOpsC_cons (atof : Str → Rat) (mf fuel : Nat) (fs : Str → Option Str) (l : Str) (ls : List Str) (c : Cont) :
    runOpsC atof mf fuel fs (l :: ls) c =
    (if Awk.getNF ' ' l = 3 then
      match atoi (Awk.dollar ' ' l 3) with
      | none => none
      | some tr => match opnOf (Awk.dollar ' ' l 1) with
        | some o => match fs (Awk.dollar ' ' l 2) with
          | none => some c
          | some other => (opLoopC atof mf o (tr != 0) fuel (openFile other) c).bind (runOpsC atof mf fuel fs ls)
        | none => runOpsC atof mf fuel fs ls c
    else if Awk.getNF ' ' l ≠ 0 then some c
    else runOpsC atof mf fuel fs ls c) := rfl

theorem runOpsC_eq (atof : Str → Rat) (fmt : Rat → Str) (hf : ∀ x, Word (fmt x)) (fs : Str → Option Str) (outName : Str)
    (ls : List OLine) (hl : ∀ l ∈ ls, LineOk fmt fs outName l) (c : Cont) (M : Sent × Sent → Option (Mat × Nat)) (hc : Holds c M) (hd : DimOk M) :
    ∃ N c' M', (∀ mf fuel, N ≤ mf → N ≤ fuel → runOpsC atof mf fuel fs (ls.map lineText) c = some c') ∧ Holds c' M' ∧ DimOk M' ∧
      ∀ p, (M p = none → M' p = none) ∧ ∀ A n, M p = some (A, n) → ∃ R, M' p = some (R, n) ∧ PairOps fmt fs p A ls R := by
  induction ls generalizing c M with
  | nil => exact ⟨0, c, M, fun _ _ _ _ => rfl, hc, hd, fun p => ⟨id, fun A n h => ⟨A, h, .nil A⟩⟩⟩
  | cons l ls ih =>
    have hl0 := hl l List.mem_cons_self
    have hl' := fun l' (hm : l' ∈ ls) => hl l' (List.mem_cons_of_mem _ hm)
    cases l with
    | blank k =>
      obtain ⟨N, c', M', h1, h2, h3, h4⟩ := ih hl' c M hc hd
      refine ⟨N, c', M', ?_, h2, h3, fun p => ⟨(h4 p).1, fun A n h => ?_⟩⟩
      · intro mf fuel hm hfu
        rw [List.map_cons, show lineText (OLine.blank k) = List.replicate k ' ' from rfl, runOpsC_cons]
        rw [Awk.C41_NF, fields_blank]
        exact h1 mf fuel hm hfu
      · obtain ⟨R, r1, r2⟩ := (h4 p).2 A n h
        exact ⟨R, r1, .skip _ rfl r2⟩
    | bad w1 w2 w3 =>
      obtain ⟨N, c', M', h1, h2, h3, h4⟩ := ih hl' c M hc hd
      obtain ⟨k1, k2, k3, k4, k5⟩ := hl0
      obtain ⟨t1, t2, t3, t4⟩ := three w1 w2 w3 k1 k2 k3
      refine ⟨N, c', M', ?_, h2, h3, fun p => ⟨(h4 p).1, fun A n h => ?_⟩⟩
      · intro mf fuel hm hfu
        rw [List.map_cons, show lineText (OLine.bad w1 w2 w3) = joinWords [w1, w2, w3] from rfl, runOpsC_cons]
        rw [t1, if_pos rfl, t2, t4]
        cases hat : atoi w3 with
        | none => exact absurd hat k5
        | some r =>
          simp only
          rw [opnOf_none w1 k4]
          exact h1 mf fuel hm hfu
      · obtain ⟨R, r1, r2⟩ := (h4 p).2 A n h
        exact ⟨R, r1, .skip _ rfl r2⟩
    | op o name tr =>
      obtain ⟨k1, k2, bs, fb, k3, k4, k5⟩ := hl0
      obtain ⟨N1, c1, M1, g1, g2, g3, g4⟩ := opLoopC_eq atof fmt hf o tr bs k5 fb k3 c M hc hd
      obtain ⟨N2, c', M', h1, h2, h3, h4⟩ := ih hl' c1 M1 g2 g3
      obtain ⟨t1, t2, t3, t4⟩ := three (opnName o) name _ (opnName_word o) k1 (flag_word tr)
      refine ⟨max (max N1 N2) (bs.length + 1), c', M', ?_, h2, h3, fun p => ⟨fun h => (h4 p).1 ((g4 p).1 h), fun A n h => ?_⟩⟩
      · intro mf fuel hm hfu
        rw [List.map_cons, show lineText (OLine.op o name tr) = joinWords [opnName o, name, if tr then ['1'] else ['0']] from rfl,
          runOpsC_cons]
        rw [t1, if_pos rfl, t2, t3, t4]
        have hat : ∃ r, atoi (if tr then ['1'] else ['0']) = some r ∧ (r != 0) = tr := by
          cases tr
          · exact ⟨0, by decide +kernel, by decide⟩
          · exact ⟨1, by decide +kernel, by decide⟩
        obtain ⟨r, hr, hb⟩ := hat
        rw [hr]
        simp only
        rw [opnOf_name]
        simp only
        rw [k4]
        simp only
        rw [hb, g1 mf fuel (openFile fb) (by omega) (by omega) rfl]
        exact h1 mf fuel (by omega) (by omega)
      · obtain ⟨B, r1, r2⟩ := (g4 p).2 A n h
        obtain ⟨R, s1, s2⟩ := (h4 p).2 B n r1
        exact ⟨R, s1, .op o name tr bs B ⟨by rw [k3, k4], k5⟩ r2 s2⟩

/-! ### Printing -/

def infoEntry (c : Cont) (t : List Nat) (i : Info) : Entry := ⟨decode c.sv.inv i.s, decode c.tv.inv t, i.mat, (i.count : Nat)⟩

def entriesOf (c : Cont) (cells : List (List Nat × List Info)) : List Entry := cells.flatMap fun x => x.2.map (infoEntry c x.1)

theorem printAll_append (fmt : Rat → Str) (as bs : List Entry) : printAll fmt (as ++ bs) =
    match printAll fmt as, printAll fmt bs with
    | some a, some b => some (a ++ b)
    | _, _ => none := by
  induction as with
  | nil => rw [List.nil_append, printAll]; cases printAll fmt bs <;> rfl
  | cons e es ih =>
    rw [List.cons_append, printAll, ih, printAll]
    cases printGiza (['#', ' '] ++ fmt e.reps) e.ns e.t e.mat <;> cases printAll fmt es <;> cases printAll fmt bs <;> simp

theorem printInfos_eq (c : Cont) (t : List Nat) (is : List Info) : printInfos c t is = printAll natFmt (is.map (infoEntry c t)) := by
  induction is with
  | nil => rfl
  | cons i is ih => rw [printInfos, ih, List.map_cons, printAll]; rfl

theorem printCompact_eq (c : Cont) (cells : List (List Nat × List Info)) : printCompact c cells = printAll natFmt (entriesOf c cells) := by
  induction cells with
  | nil => rfl
  | cons x xs ih =>
    rw [printCompact, ih, printInfos_eq, show entriesOf c (x :: xs) = x.2.map (infoEntry c x.1) ++ entriesOf c xs from rfl, printAll_append]
    cases printAll natFmt (x.2.map (infoEntry c x.1)) <;> cases printAll natFmt (entriesOf c xs) <;> rfl

theorem print_some (header : Str) (e : Entry) (h : SizeOk e) : ∃ f, printGiza header e.ns e.t e.mat = some f := by
  have := List.length_pos_iff.2 h.1
  unfold printGiza
  rw [printSrc_eq e.mat e.ns 0 (by have := h.2.1; omega)]; exact ⟨_, rfl⟩

theorem printAll_some' (fmt : Rat → Str) (es : List Entry) (h : ∀ e ∈ es, SizeOk e) : ∃ f, printAll fmt es = some f := by
  induction es with
  | nil => exact ⟨[], rfl⟩
  | cons e es ih =>
    obtain ⟨f, hf⟩ := ih (fun x hx => h x (List.mem_cons_of_mem _ hx))
    obtain ⟨g, hg⟩ := print_some (['#', ' '] ++ fmt e.reps) e (h e List.mem_cons_self)
    rw [printAll, hf, hg]; exact ⟨_, rfl⟩

theorem lkI_mem {l : List Info} (h : (l.map Info.s).Nodup) {i : Info} (hi : i ∈ l) : lkI i.s l = some (i.mat, i.count) := by
  induction l with
  | nil => cases hi
  | cons x xs ih =>
    rw [List.map_cons, List.nodup_cons] at h
    rw [lkI]
    rcases List.mem_cons.1 hi with rfl | hi
    · rw [if_pos rfl]
    · rw [if_neg, ih h.2 hi]
      intro hc
      exact h.1 (hc ▸ List.mem_map_of_mem hi)

theorem mem_lkI {l : List Info} {s : List Nat} {q : Mat × Nat} (h : lkI s l = some q) : (⟨s, q.1, q.2⟩ : Info) ∈ l := by
  induction l with
  | nil => cases h
  | cons x xs ih =>
    rw [lkI] at h
    split at h
    · rename_i e
      injection h with h
      rw [← h, ← e]; exact List.mem_cons_self
    · exact List.mem_cons_of_mem _ (ih h)

theorem look_mem {c : Cont} {M : Sent × Sent → Option (Mat × Nat)} (h : Holds c M) {x : List Nat × List Info} (hx : x ∈ c.cells) {i : Info}
    (hi : i ∈ x.2) : look c.cells x.1 i.s = some (i.mat, i.count) := by
  unfold look
  rw [(AMap.lk_some_iff h.cells.1).2 hx]
  exact lkI_mem (h.cells.2 x hx) hi

theorem entry_val {c : Cont} {M : Sent × Sent → Option (Mat × Nat)} (h : Holds c M) {e : Entry} (he : e ∈ entriesOf c c.cells) :
    ∃ n : Nat, M (pairOf e) = some (e.mat, n) ∧ e.reps = (n : Nat) := by
  obtain ⟨x, hx, he⟩ := List.mem_flatMap.1 he
  obtain ⟨i, hi, rfl⟩ := List.mem_map.1 he
  have hl := look_mem h hx hi
  obtain ⟨v1, v2⟩ := h.valid _ _ _ hl
  have := h.eq _ _ v1 v2
  rw [hl] at this
  exact ⟨i.count, this.symm, rfl⟩

theorem entry_mem {c : Cont} {M : Sent × Sent → Option (Mat × Nat)} (h : Holds c M) {p : Sent × Sent} (hp : M p ≠ none) :
    p ∈ (entriesOf c c.cells).map pairOf := by
  obtain ⟨t, s, v1, v2, e⟩ := h.surj p hp
  have hl := h.eq t s v1 v2
  rw [← e] at hl
  cases hM : M p with
  | none => exact absurd hM hp
  | some q =>
    rw [hM] at hl
    unfold look at hl
    cases hk : AMap.lk c.cells t with
    | none => rw [hk] at hl; cases hl
    | some l =>
      rw [hk] at hl
      refine List.mem_map.2 ⟨infoEntry c t ⟨s, q.1, q.2⟩, List.mem_flatMap.2 ⟨(t, l), mem_of_lk hk, List.mem_map_of_mem (mem_lkI hl)⟩, ?_⟩
      rw [e]; rfl

theorem entries_nodup {c : Cont} {M : Sent × Sent → Option (Mat × Nat)} (h : Holds c M) : ((entriesOf c c.cells).map pairOf).Nodup := by
  suffices hs : ∀ cells : List (List Nat × List Info), (∀ x ∈ cells, x ∈ c.cells) → AMap.Distinct cells →
      ((entriesOf c cells).map pairOf).Nodup from hs _ (fun _ hx => hx) h.cells.1
  intro cells
  induction cells with
  | nil => intro _ _; exact List.nodup_nil
  | cons x xs ih =>
    intro hsub hd
    obtain ⟨d1, d2⟩ := List.nodup_cons.1 hd
    have hx := hsub x List.mem_cons_self
    have val : ∀ y ∈ c.cells, ∀ i ∈ y.2, Valid c.tv.inv y.1 ∧ Valid c.sv.inv i.s := fun y hy i hi => h.valid _ _ _ (look_mem h hy hi)
    rw [entriesOf, List.flatMap_cons, List.map_append, List.nodup_append]
    refine ⟨?_, ih (fun y hy => hsub y (List.mem_cons_of_mem _ hy)) d2, ?_⟩
    · have hn := h.cells.2 x hx
      have hv := fun i hi => (val x hx i hi).2
      clear ih hsub hd d1 d2 hx
      generalize x.2 = l at hn hv
      induction l with
      | nil => exact List.nodup_nil
      | cons i is ih =>
        rw [List.map_cons, List.nodup_cons] at hn
        rw [List.map_cons, List.map_cons, List.nodup_cons]
        refine ⟨?_, ih hn.2 (fun j hj => hv j (List.mem_cons_of_mem _ hj))⟩
        intro hm
        rw [List.map_map] at hm
        obtain ⟨j, hj, he⟩ := List.mem_map.1 hm
        simp only [Function.comp, pairOf, infoEntry] at he
        injection he with e1 e2
        have := decode_inj h.sv.1 (hv j (List.mem_cons_of_mem _ hj)) (hv i List.mem_cons_self) e1
        exact hn.1 (this ▸ List.mem_map_of_mem hj)
    · intro a ha b hb hab
      rw [List.map_map] at ha
      obtain ⟨i, hi, rfl⟩ := List.mem_map.1 ha
      obtain ⟨e, he, rfl⟩ := List.mem_map.1 hb
      obtain ⟨y, hy, he⟩ := List.mem_flatMap.1 he
      obtain ⟨j, hj, rfl⟩ := List.mem_map.1 he
      simp only [Function.comp, pairOf, infoEntry] at hab
      injection hab with e1 e2
      have := decode_inj h.tv.1 (val x hx i hi).1 (val y (hsub y (List.mem_cons_of_mem _ hy)) j hj).1 e2
      exact d1 (this ▸ List.mem_map_of_mem hy)

/-! ### C166 -/

theorem mats_head {es : List Entry} {p : Sent × Sent} : p ∈ es.map pairOf ↔ matsOf p es ≠ [] := by
  unfold matsOf
  rw [Ne, List.map_eq_nil_iff, List.filter_eq_nil_iff, List.mem_map]
  constructor
  · rintro ⟨e, he, hp⟩ hc; exact hc e he (by simpa using hp)
  · intro h
    by_cases hex : ∃ a, a ∈ es ∧ pairOf a = p
    · exact hex
    · exact absurd (fun a ha hc => hex ⟨a, ha, by simpa using hc⟩) h

/-- What the container holds at the end. -/
theorem final_eq (atof : Str → Rat) (fmt : Rat → Str) (hf : ∀ x, Word (fmt x)) (fs : Str → Option Str) (outName : Str)
    (gt : Bool) (ls : List OLine) (hl : ∀ l ∈ ls, LineOk fmt fs outName l) (as : List Entry) (ha : ∀ e ∈ as, EntryOk e) (fa : Str)
    (pa : printAll fmt as = some fa) :
    ∃ N c M, (∀ mf fuel, N ≤ mf → N ≤ fuel → as.length < fuel ∧ ∃ c0, extractFile atof gt fuel fa = some c0 ∧
        runOpsC atof mf fuel fs (Awk.readAll ((textOfOps ls).length + 1) (textOfOps ls)) c0 = some c) ∧ Holds c M ∧ DimOk M ∧
      (∀ p, M p ≠ none ↔ p ∈ (as.map (turned gt)).map pairOf) ∧
      ∀ p R n, M p = some (R, n) → n = (matsOf p (as.map (turned gt))).length ∧
        ∃ A, (matsOf p (as.map (turned gt))).head? = some A ∧ PairOps fmt fs p A ls R := by
  have hd0 : DimOk (fun _ => none) := by intro p A n h; cases h
  obtain ⟨c0, h1, h2, h3⟩ := extract_eq atof fmt hf gt as ha fa pa (openFile fa) Cont.empty (fun _ => none) (as.length + 1) rfl holds_empty hd0
    (by omega)
  obtain ⟨N, c, M, g1, g2, g3, g4⟩ := runOpsC_eq atof fmt hf fs outName ls hl c0 _ h2 h3
  have hM0 : ∀ p, (as.map (turned gt)).foldl addM (fun _ => none) p = match matsOf p (as.map (turned gt)) with
      | [] => none
      | A :: r => some (A, r.length + 1) := fun p => by rw [fold_addM]
  refine ⟨max N (as.length + 1), c, M, ?_, g2, g3, ?_, ?_⟩
  · intro mf fuel hm hfu
    refine ⟨by omega, ?_⟩
    obtain ⟨c0', h1', h2', h3'⟩ := extract_eq atof fmt hf gt as ha fa pa (openFile fa) Cont.empty (fun _ => none) fuel rfl holds_empty hd0
      (by omega)
    have heq : c0' = c0 := by
      have mono : ∀ (f : Nat) (x : Ext) (c c1 : Cont), extractLoop atof gt f x c = some c1 → ∀ f', f ≤ f' → extractLoop atof gt f' x c = some c1 := by
        intro f
        induction f with
        | zero => intro x c c1 h; cases h
        | succ f ih =>
          intro x c c1 h f' hf'
          cases f' with
          | zero => omega
          | succ f' =>
            rw [extractLoop] at h ⊢
            cases hn : nextGiza atof x with
            | none => rw [hn] at h; cases h
            | some r =>
              rw [hn] at h
              simp only at h ⊢
              split
              · rename_i hr
                rw [if_pos hr] at h
                exact ih _ _ _ h f' (by omega)
              · rename_i hr
                rw [if_neg hr] at h; exact h
      have := mono _ _ _ _ h1 fuel (by omega)
      rw [h1'] at this
      injection this
    refine ⟨c0, by unfold extractFile; rw [h1', heq], ?_⟩
    rw [ops_lines fmt fs outName ls hl]
    exact g1 mf fuel (by omega) (by omega)
  · intro p
    obtain ⟨k1, k2⟩ := g4 p
    rw [hM0 p] at k1 k2
    rw [mats_head]
    cases hm : matsOf p (as.map (turned gt)) with
    | nil => rw [hm] at k1; simp [k1 rfl]
    | cons A r =>
      rw [hm] at k2
      obtain ⟨R, r1, _⟩ := k2 A (r.length + 1) rfl
      simp [r1]
  · intro p R n hp
    obtain ⟨k1, k2⟩ := g4 p
    rw [hM0 p] at k1 k2
    cases hm : matsOf p (as.map (turned gt)) with
    | nil => rw [hm] at k1; rw [k1 rfl] at hp; cases hp
    | cons A r =>
      rw [hm] at k2
      obtain ⟨R', r1, r2⟩ := k2 A (r.length + 1) rfl
      rw [r1] at hp
      injection hp with hp
      injection hp with e1 e2
      exact ⟨e2.symm, A, rfl, e1 ▸ r2⟩

/-- **C166.** With `-e -compact`, a file of operations (any lines: operations, unknown operations, blank lines) makes the tool write one
entry for each different sentence pair of the first file (transposed with `-gt`), with the number of times that the sentence pair was in
the file. The matrix results from the operations on the matrix of its first occurrence, each operation being done with all the
matrices of the same sentence pair in the other file. -/
theorem C166_exhaustive_compact (atof : Str → Rat) (fmt : Rat → Str) (hf : ∀ x, Word (fmt x)) (fs : Str → Option Str) (outName : Str)
    (gt : Bool) (ls : List OLine) (hl : ∀ l ∈ ls, LineOk fmt fs outName l) (as : List Entry) (ha : ∀ e ∈ as, EntryOk e) :
    ∃ fa rs out n, printAll fmt as = some fa ∧ CompactResult fmt fs (as.map (turned gt)) ls rs ∧ printAll natFmt rs = some out ∧
      ∀ mf fuel, n ≤ mf → n ≤ fuel → exhaustiveOps atof mf fuel fs gt true (textOfOps ls) fa = some out := by
  obtain ⟨fa, pa⟩ := print_all_some fmt as ha
  obtain ⟨N, c, M, h1, h2, h3, h4, h5⟩ := final_eq atof fmt hf fs outName gt ls hl as ha fa pa
  obtain ⟨out, ho⟩ := printAll_some' natFmt (entriesOf c c.cells) (by
    intro e he
    obtain ⟨n, v1, _⟩ := entry_val h2 he
    exact h3 _ _ _ v1)
  refine ⟨fa, entriesOf c c.cells, out, N, pa, ⟨entries_nodup h2, ?_, ?_⟩, ho, ?_⟩
  · intro p
    rw [← h4]
    constructor
    · intro hp
      obtain ⟨e, he, rfl⟩ := List.mem_map.1 hp
      obtain ⟨n, v1, _⟩ := entry_val h2 he
      rw [v1]; simp
    · exact entry_mem h2
  · intro r hr
    obtain ⟨n, v1, v2⟩ := entry_val h2 hr
    obtain ⟨e1, e2⟩ := h5 _ _ _ v1
    exact ⟨by rw [v2, e1], e2⟩
  · intro mf fuel hm hfu
    obtain ⟨_, c0, k1, k2⟩ := h1 mf fuel hm hfu
    unfold exhaustiveOps
    rw [k1]
    simp only
    rw [k2]
    simp only [if_true]
    rw [printCompact_eq]; exact ho

/-! ### C167 -/

theorem noCompactInfos_eq {c : Cont} {M : Sent × Sent → Option (Mat × Nat)} (h : Holds c M) (s : List Nat) (vs : Valid c.sv.inv s) (t : Sent)
    (n : Nat) (l : List Info) (hl : (l.map Info.s).Nodup) (hv : ∀ i ∈ l, Valid c.sv.inv i.s) :
    noCompactInfos c (decode c.sv.inv s) t n l = match lkI s l with
      | none => some ([], n)
      | some q => (printGiza (sentHeader (n + 1)) (decode c.sv.inv s) t q.1).map fun a => (a, n + 1) := by
  induction l generalizing n with
  | nil => rfl
  | cons i is ih =>
    rw [List.map_cons, List.nodup_cons] at hl
    have hrec := fun m => ih m hl.2 (fun j hj => hv j (List.mem_cons_of_mem _ hj))
    rw [noCompactInfos, lkI]
    by_cases hi : i.s = s
    · have hno : lkI s is = none := lkI_none.2 (hi ▸ hl.1)
      rw [if_pos (by rw [hi]), if_pos hi, hrec, hno]
      simp only
      cases hg : printGiza (sentHeader (n + 1)) (decode c.sv.inv s) t i.mat with
      | none => simp
      | some a => simp
    · rw [if_neg (fun hc => hi (decode_inj h.sv.1 (hv i List.mem_cons_self) vs hc.symm)), if_neg hi, hrec]

theorem printNumbered_cons (n : Nat) (e : Entry) (es : List Entry) : printNumbered n (e :: es) =
    match printGiza (sentHeader n) e.ns e.t e.mat, printNumbered (n + 1) es with
    | some a, some b => some (a ++ b)
    | _, _ => none := rfl

theorem plain_loop (atof : Str → Rat) (fmt : Rat → Str) (hf : ∀ x, Word (fmt x)) (M : Sent × Sent → Option (Mat × Nat)) (hd : DimOk M)
    (as : List Entry) (ha : ∀ e ∈ as, EntryOk e) (hM : ∀ e ∈ as, M (pairOf e) ≠ none) :
    ∀ fa, printAll fmt as = some fa → ∀ n, ∃ rs out, rs.map pairOf = as.map pairOf ∧ (∀ r ∈ rs, ∃ k, M (pairOf r) = some (r.mat, k)) ∧
      printNumbered (n + 1) rs = some out ∧
      ∀ (c : Cont) (x : Ext) (fuel : Nat), Holds c M → x.inp = fa → as.length < fuel → noCompactLoop atof fuel n x c = some out := by
  induction as with
  | nil =>
    intro fa pa n
    injection pa with pa
    refine ⟨[], [], rfl, by simp, rfl, ?_⟩
    intro c x fuel _ hx hfu
    cases fuel with
    | zero => simp at hfu
    | succ fuel => rw [noCompactLoop, next_nil atof x (by rw [hx, ← pa])]; rfl
  | cons e es ih =>
    intro fa pa n
    obtain ⟨f', pf', hn⟩ := next_cons fmt atof hf e es ha fa pa
    obtain ⟨rs, out, h1, h2, h3, h4⟩ := ih (fun z hz => ha z (List.mem_cons_of_mem _ hz)) (fun z hz => hM z (List.mem_cons_of_mem _ hz))
      f' pf' (n + 1)
    cases hm : M (pairOf e) with
    | none => exact absurd hm (hM e List.mem_cons_self)
    | some q =>
      obtain ⟨d0, d1, d2⟩ := hd _ q.1 q.2 hm
      obtain ⟨g, hg⟩ := print_some (sentHeader (n + 1)) ⟨e.ns, e.t, q.1, 0⟩ ⟨d0, d1, d2⟩
      refine ⟨⟨e.ns, e.t, q.1, 0⟩ :: rs, g ++ out, ?_, ?_, ?_, ?_⟩
      · rw [List.map_cons, List.map_cons, h1]; rfl
      · intro r hr
        rcases List.mem_cons.1 hr with rfl | hr
        · exact ⟨q.2, hm⟩
        · exact h2 r hr
      · rw [printNumbered_cons]
        simp only at hg ⊢
        rw [hg, h3]
      · intro c x fuel hc hx hfu
        cases fuel with
        | zero => simp at hfu
        | succ fuel =>
          obtain ⟨y, hy, ⟨y1, y2, y3⟩, _, iy⟩ := hn x hx
          obtain ⟨a1, a2, a3, a4⟩ := encode_ok y.t c.tv hc.tv
          have hg' := holds_grow hc _ c.sv a1 hc.sv a2 (List.prefix_refl _)
          rw [noCompactLoop, hy]
          simp only [if_true]
          obtain ⟨t0, s0, v1, v2, e0⟩ := hg'.surj (pairOf e) (by rw [hm]; simp)
          injection e0 with e1 e2
          have ht : t0 = (encode c.tv y.t).2 := decode_inj a1.1 v1 a3 (by rw [a4]; exact (y2.trans e2).symm)
          have hlk := hg'.eq t0 s0 v1 v2
          simp only at hlk e1 e2 v1 v2
          rw [← e1, ← e2, show ((e.ns, e.t) : Sent × Sent) = pairOf e from rfl, hm] at hlk
          unfold look at hlk
          cases hcell : AMap.lk c.cells t0 with
          | none => rw [hcell] at hlk; cases hlk
          | some l =>
            rw [hcell] at hlk
            simp only [Option.bind_some] at hlk
            rw [← ht, hcell]
            simp only [Option.getD_some]
            have hmem := mem_of_lk hcell
            have := noCompactInfos_eq hg' s0 v2 y.t n l (hc.cells.2 _ hmem) (fun i hi => (hc.valid _ _ _ (look_mem hc hmem hi)).2)
            simp only at this
            rw [← e1, hlk] at this
            rw [y1, this]
            simp only
            rw [y2, hg]
            simp only [Option.map_some]
            have hg2 := hg'
            rw [y2] at hg2
            rw [h4 _ y fuel hg2 iy (by simp at hfu; omega)]
            rfl

/-- The entries of the file in order, with the matrices that result from the operations, numbered. -/
def PlainClaim (gt : Bool) : Prop :=
  ∀ (atof : Str → Rat) (fmt : Rat → Str), (∀ x, Word (fmt x)) → ∀ (fs : Str → Option Str) (outName : Str) (ls : List OLine),
    (∀ l ∈ ls, LineOk fmt fs outName l) → ∀ as : List Entry, (∀ e ∈ as, EntryOk e) → ∀ fa, printAll fmt as = some fa →
    ∃ rs out n, PlainResult fmt fs (as.map (turned gt)) ls rs ∧ printNumbered 1 rs = some out ∧
      ∀ mf fuel, n ≤ mf → n ≤ fuel → exhaustiveOps atof mf fuel fs gt false (textOfOps ls) fa = some out

/-- The full statement: also for `-gt`. -/
def C167_full : Prop := ∀ gt, PlainClaim gt

/-- **C167 (partial).** With `-e` and `-g`, the tool writes an entry for each entry of the first file, in order and numbered. All the entries
with the same sentence pair have the same matrix: the one that results from the operations on the first of their matrices, each
operation being done with all the matrices of the same sentence pair in the other file. Missing with respect to `C167_full`: `-gt`. -/
theorem C167_exhaustive_plain_partial : PlainClaim false := by
  intro atof fmt hf fs outName ls hl as ha fa pa
  obtain ⟨N, c, M, h1, h2, h3, h4, h5⟩ := final_eq atof fmt hf fs outName false ls hl as ha fa pa
  have hmap : as.map (turned false) = as := by
    have : turned false = id := rfl
    rw [this, List.map_id]
  rw [hmap] at h4 h5 ⊢
  obtain ⟨rs, out, g1, g2, g3, g4⟩ := plain_loop atof fmt hf M h3 as ha (fun e he => (h4 _).2 (List.mem_map_of_mem he)) fa pa 0
  refine ⟨rs, out, N, ⟨g1, ?_, ?_⟩, g3, ?_⟩
  · intro r hr r' hr' hp
    obtain ⟨k, hk⟩ := g2 r hr
    obtain ⟨k', hk'⟩ := g2 r' hr'
    rw [hp, hk'] at hk
    injection hk with hk
    injection hk with e1 e2
    exact e1.symm
  · intro r hr
    obtain ⟨k, hk⟩ := g2 r hr
    exact (h5 _ _ _ hk).2
  · intro mf fuel hm hfu
    obtain ⟨hlen, c0, k1, k2⟩ := h1 mf fuel hm hfu
    unfold exhaustiveOps
    rw [k1]
    simp only
    rw [k2]
    simp only [Bool.false_eq_true, if_false]
    exact g4 c (openFile fa) fuel h2 rfl hlen

/-! ### The full statement is false -/

theorem infos_none (c : Cont) (ns t : Sent) (n : Nat) (l : List Info) (h : ∀ i ∈ l, ns ≠ decode c.sv.inv i.s) :
    noCompactInfos c ns t n l = some ([], n) := by
  induction l with
  | nil => rfl
  | cons i is ih =>
    rw [noCompactInfos, if_neg (h i List.mem_cons_self)]
    exact ih (fun j hj => h j (List.mem_cons_of_mem _ hj))

/-- Nothing is written for the sentence pairs that the container does not have. -/
theorem plain_none (atof : Str → Rat) (fmt : Rat → Str) (hf : ∀ x, Word (fmt x)) (M : Sent × Sent → Option (Mat × Nat))
    (as : List Entry) (ha : ∀ e ∈ as, EntryOk e) (hM : ∀ e ∈ as, M (pairOf e) = none) :
    ∀ fa, printAll fmt as = some fa → ∀ (n : Nat) (c : Cont) (x : Ext) (fuel : Nat), Holds c M → x.inp = fa → as.length < fuel →
      noCompactLoop atof fuel n x c = some [] := by
  induction as with
  | nil =>
    intro fa pa n c x fuel _ hx hfu
    injection pa with pa
    cases fuel with
    | zero => simp at hfu
    | succ fuel => rw [noCompactLoop, next_nil atof x (by rw [hx, ← pa])]; rfl
  | cons e es ih =>
    intro fa pa n c x fuel hc hx hfu
    obtain ⟨f', pf', hn⟩ := next_cons fmt atof hf e es ha fa pa
    cases fuel with
    | zero => simp at hfu
    | succ fuel =>
      obtain ⟨y, hy, ⟨y1, y2, y3⟩, _, iy⟩ := hn x hx
      obtain ⟨a1, a2, a3, a4⟩ := encode_ok y.t c.tv hc.tv
      have hg := holds_grow hc _ c.sv a1 hc.sv a2 (List.prefix_refl _)
      rw [noCompactLoop, hy]
      simp only [if_true]
      rw [infos_none _ _ _ _ _ (by
        intro i hi hcon
        cases hcell : AMap.lk c.cells (encode c.tv y.t).2 with
        | none => rw [hcell] at hi; cases hi
        | some l =>
          rw [hcell] at hi
          have hmem := mem_of_lk hcell
          have hl := look_mem hg hmem hi
          obtain ⟨v1, v2⟩ := hg.valid _ _ _ hl
          have he := hg.eq _ _ v1 v2
          rw [hl] at he
          simp only at he hcon
          rw [a4, ← hcon, y1, y2, show ((e.ns, e.t) : Sent × Sent) = pairOf e from rfl, hM e List.mem_cons_self] at he
          cases he)]
      simp only
      rw [ih (fun z hz => ha z (List.mem_cons_of_mem _ hz)) (fun z hz => hM z (List.mem_cons_of_mem _ hz)) f' pf' n _ y fuel hg iy
        (by simp at hfu; omega)]
      rfl

/-- With `-gt` nothing is written for a sentence pair that is not the transposition of one of the file. -/
theorem C167_counterexample : ¬ C167_full := by
  intro h
  have hok : ∀ e ∈ exA.take 1, EntryOk e := fun e he => exOk e (List.mem_append_left _ (List.mem_of_mem_take he))
  obtain ⟨fa, pa⟩ := print_all_some exFmt (exA.take 1) hok
  obtain ⟨rs, out, n, ⟨h1, _⟩, h2, h3⟩ := h true exAtof exFmt exFmt_word exFs ['o'] [] (by simp) (exA.take 1) hok fa pa
  obtain ⟨N, c, M, g1, g2, g3, g4, g5⟩ := final_eq exAtof exFmt exFmt_word exFs ['o'] true [] (by simp) (exA.take 1) hok fa pa
  obtain ⟨hlen, c0, k1, k2⟩ := g1 (max n N) (max n N) (by omega) (by omega)
  have h4 := h3 (max n N) (max n N) (by omega) (by omega)
  unfold exhaustiveOps at h4
  rw [k1] at h4
  simp only at h4
  rw [k2] at h4
  simp only [Bool.false_eq_true, if_false] at h4
  rw [plain_none exAtof exFmt exFmt_word M (exA.take 1) hok (by
    intro e he
    have hne : ¬ (M (pairOf e) ≠ none) := by
      rw [g4]
      have : e = exA.head (by simp [exA]) := by
        have e1 : exA.take 1 = [exA.head (by simp [exA])] := rfl
        rw [e1, List.mem_singleton] at he; exact he
      rw [this]
      decide +kernel
    exact Classical.not_not.1 hne) fa pa 0 c (openFile fa) (max n N) g2 rfl hlen] at h4
  injection h4 with h4
  subst h4
  cases rs with
  | nil => cases h1
  | cons r rs =>
    rw [printNumbered] at h2
    unfold printGiza at h2
    cases hp : printSrc r.mat 0 r.ns with
    | none => rw [hp] at h2; cases h2
    | some s =>
      rw [hp] at h2
      cases hq : printNumbered 2 rs with
      | none =>
        rw [show 1 + 1 = 2 from rfl, hq] at h2; cases h2
      | some b =>
        rw [show 1 + 1 = 2 from rfl, hq] at h2
        simp at h2

/-- A concrete case: a sentence pair twice in the first file and twice in the other; the compact output. -/
example : ((printAll exFmt (exA ++ exA)).bind fun fa => exhaustiveOps exAtof 0 9
      (fun n => if n = ['f'] then printAll exFmt (exB ++ exB) else none) false true (textOfOps exLines) fa).map String.ofList =
    some "# 2\nz\nNULL ({ }) c ({ 1 }) \n# 2\nx y\nNULL ({ 2 }) a ({ 1 }) b ({ }) \n" := by decide +kernel

example : ((printAll exFmt (exA ++ exA)).bind fun fa => exhaustiveOps exAtof 0 9
      (fun n => if n = ['f'] then printAll exFmt (exB ++ exB) else none) false false (textOfOps exLines) fa).map String.ofList =
    some "# Sentence 1\nx y\nNULL ({ 2 }) a ({ 1 }) b ({ }) \n# Sentence 2\nz\nNULL ({ }) c ({ 1 }) \n# Sentence 3\nx y\nNULL ({ 2 }) a ({ 1 }) b ({ }) \n# Sentence 4\nz\nNULL ({ }) c ({ 1 }) \n" := by
  decide +kernel

end Thot.AligFile
