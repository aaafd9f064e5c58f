import Verif.AligFile.Giza
/-! C164, C165: operations between alignment files. -/
namespace Thot.AligFile
open Thot.WordAlig (Mat Link Adds Ok1 Ok2 OkGrow OkFinal)
open Thot.Vocab (showNat atoi toWordIndex)
open Thot.SentHandler (joinWords Word Line fields_join line_join)

/-! ### Specification -/

/-- `S` has the dimensions of `A` and the links that `A` and `B` share. -/
def Inter (A B S : Mat) : Prop := S.I = A.I ∧ S.J = A.J ∧ ∀ i j, Link S i j ↔ Link A i j ∧ Link B i j

/-- What the operations are meant to do on two matrices of the same dimensions (`Ok1`, `Ok2`, `OkGrow`, `OkFinal`: when a link may
be added; see C09-C11). -/
def OpMeaning (o : Opn) (A B R : Mat) : Prop :=
  R.I = A.I ∧ R.J = A.J ∧ match o with
  | .and => ∀ i j, Link R i j ↔ Link A i j ∧ Link B i j
  | .or => ∀ i j, Link R i j ↔ Link A i j ∨ Link B i j
  | .sum => ∀ i j, i < A.I → j < A.J → R.m i j = A.m i j + B.m i j
  | .sym1 => ∃ S, Inter A B S ∧ Adds (Ok1 A B) S R ∧ ∀ i j, ¬ Ok1 A B R i j
  | .sym2 => ∃ S, Inter A B S ∧ Adds (Ok2 A B) S R ∧ ∀ i j, ¬ Ok2 A B R i j
  | .grd => ∃ S M1 M2, Inter A B S ∧ Adds (OkGrow A B) S M1 ∧ (∀ i j, ¬ OkGrow A B M1 i j) ∧ Adds (OkFinal A) M1 M2 ∧
      Adds (OkFinal B) M2 R

/-- The sentence pair in the other direction: the null word stays first and the matrix is transposed. -/
def flipEntry (e : Entry) : Entry :=
  ⟨e.ns.head?.getD [] :: e.t, e.ns.tail, ⟨e.mat.J, e.mat.I, fun j i => if i < e.mat.I ∧ j < e.mat.J then e.mat.m i j else 0⟩, e.reps⟩

/-- The entry written for `a` when it is operated with `b`: if `b` (transposed if asked) has the same sentences then the matrix is
the result of the operation, otherwise it is the one of `a`. -/
def Combined (atof : Str → Rat) (fmt : Rat → Str) (o : Opn) (tr : Bool) (a b r : Entry) : Prop :=
  let b' := if tr then flipEntry b else b
  r.ns = a.ns ∧ r.t = a.t ∧ r.reps = atof (fmt a.reps) ∧
  if a.t = b'.t ∧ a.ns = b'.ns then OpMeaning o (norm a.mat) (norm b'.mat) r.mat else r.mat = norm a.mat

/-- The result of an operation between two lists of entries: position by position, as long as both have entries. -/
def OpResult (atof : Str → Rat) (fmt : Rat → Str) (o : Opn) (tr : Bool) (as bs rs : List Entry) : Prop :=
  rs.length = min as.length bs.length ∧
  ∀ (k : Nat) (a b r : Entry), as[k]? = some a → bs[k]? = some b → rs[k]? = some r → Combined atof fmt o tr a b r

/-! ### Proofs -/

theorem apply_meaning (o : Opn) (A B : Mat) (hI : A.I = B.I) (hJ : A.J = B.J) :
    ∃ n R, (∀ mf, n ≤ mf → applyOpn mf o A B = some R) ∧ OpMeaning o A B R := by
  have hint : Inter A B (WordAlig.andAssign A B) := WordAlig.C12_and A B hI hJ
  cases o with
  | and => exact ⟨0, _, fun _ _ => rfl, hint.1, hint.2.1, hint.2.2⟩
  | or =>
    have h := WordAlig.C12_or A B hI hJ
    exact ⟨0, _, fun _ _ => rfl, h.1, h.2.1, h.2.2⟩
  | sum =>
    refine ⟨0, _, fun _ _ => rfl, ?_⟩
    unfold OpMeaning WordAlig.addAssign
    rw [if_pos ⟨hI, hJ⟩]
    refine ⟨rfl, rfl, fun i j hi hj => ?_⟩
    simp only [WordAlig.mapCells]
    rw [if_pos ⟨hi, hj⟩]
  | sym1 =>
    obtain ⟨n, R, h1, ⟨h2, h3⟩, h4, h5, _⟩ := WordAlig.C09_symmetr1 A B hI hJ
    exact ⟨n, R, h1, h2, h3, _, hint, h4, h5⟩
  | sym2 =>
    obtain ⟨n, R, h1, ⟨h2, h3⟩, h4, h5, _⟩ := WordAlig.C10_symmetr2 A B hI hJ
    exact ⟨n, R, h1, h2, h3, _, hint, h4, h5⟩
  | grd =>
    obtain ⟨n, M1, M2, R, h1, ⟨h2, h3⟩, h4, h5, h6, h7, _⟩ := WordAlig.C11_growDiagFinal A B hI hJ
    exact ⟨n, R, h1, h2, h3, _, M1, M2, hint, h4, h5, h6, h7⟩

/-- What is in memory after reading an entry. -/
def ExtOf (x : Ext) (e : Entry) : Prop := x.ns = e.ns ∧ x.t = e.t ∧ x.mat = norm e.mat

theorem transpose_norm (A : Mat) : WordAlig.transpose (norm A) = ⟨A.J, A.I, fun j i => if i < A.I ∧ j < A.J then A.m i j else 0⟩ := by
  unfold WordAlig.transpose WordAlig.assign WordAlig.mapCells WordAlig.init norm
  simp only
  congr 1
  funext j i
  by_cases h : j < A.J ∧ i < A.I
  · rw [if_pos h, if_pos h]
  · rw [if_neg h, if_neg (fun hc => h ⟨hc.2, hc.1⟩)]

theorem norm_norm (A : Mat) : norm (norm A) = norm A := by
  unfold norm
  simp only
  congr 1
  funext i j
  by_cases h : i < A.I ∧ j < A.J
  · rw [if_pos h, if_pos h]
  · rw [if_neg h, if_neg h]

theorem transpose_ext {x : Ext} {e : Entry} (h : ExtOf x e) : ExtOf (transposeAlig x) (flipEntry e) := by
  obtain ⟨h1, h2, h3⟩ := h
  refine ⟨?_, ?_, ?_⟩
  · simp only [transposeAlig, flipEntry, h1, h2]
  · simp only [transposeAlig, flipEntry, h1, List.drop_one]
  · simp only [transposeAlig, flipEntry, h3, transpose_norm]
    unfold norm
    simp only
    congr 1
    funext i j
    by_cases hc : i < e.mat.J ∧ j < e.mat.I
    · rw [if_pos hc]
    · rw [if_neg hc, if_neg (fun h => hc ⟨h.2, h.1⟩)]

theorem flip_sizes (e : Entry) (h : EntryOk e) : (flipEntry e).mat.I = (flipEntry e).ns.length - 1 ∧
    (flipEntry e).mat.J = (flipEntry e).t.length := by
  obtain ⟨_, _, _, h4, h5, _⟩ := h
  simp [flipEntry, h4, h5]

theorem combine_eq (atof : Str → Rat) (fmt : Rat → Str) (o : Opn) (tr : Bool) (a b : Entry) (ha : EntryOk a) (hb : EntryOk b) :
    ∃ n r, (∀ mf x y, n ≤ mf → ExtOf x a → ExtOf y b → combine mf o tr x y = some r.mat) ∧ Combined atof fmt o tr a b r ∧ EntryOk r := by
  let b' : Entry := if tr then flipEntry b else b
  have hy : ∀ y, ExtOf y b → ExtOf (if tr then transposeAlig y else y) b' := by
    intro y h
    cases tr with
    | true => exact transpose_ext h
    | false => exact h
  have hs : b'.mat.I = b'.ns.length - 1 ∧ b'.mat.J = b'.t.length := by
    cases tr with
    | true => exact flip_sizes b hb
    | false => exact ⟨hb.2.2.2.1, hb.2.2.2.2.1⟩
  by_cases hc : a.t = b'.t ∧ a.ns = b'.ns
  · obtain ⟨n, R, h1, h2⟩ := apply_meaning o (norm a.mat) (norm b'.mat)
      (by show a.mat.I = b'.mat.I; rw [hs.1, ← hc.2]; exact ha.2.2.2.1)
      (by show a.mat.J = b'.mat.J; rw [hs.2, ← hc.1]; exact ha.2.2.2.2.1)
    refine ⟨n, ⟨a.ns, a.t, R, atof (fmt a.reps)⟩, ?_, ?_, ?_⟩
    · intro mf x y hmf hx hy'
      obtain ⟨y1, y2, y3⟩ := hy y hy'
      obtain ⟨x1, x2, x3⟩ := hx
      unfold combine
      simp only
      rw [x1, x2, x3, y1, y2, y3, if_pos hc]
      exact h1 mf hmf
    · refine ⟨rfl, rfl, rfl, ?_⟩
      rw [if_pos hc]; exact h2
    · obtain ⟨e1, e2, e3, e4, e5, e6⟩ := ha
      exact ⟨e1, e2, e3, h2.1.trans e4, h2.2.1.trans e5, e6⟩
  · refine ⟨0, ⟨a.ns, a.t, norm a.mat, atof (fmt a.reps)⟩, ?_, ?_, ?_⟩
    · intro mf x y _ hx hy'
      obtain ⟨y1, y2, y3⟩ := hy y hy'
      obtain ⟨x1, x2, x3⟩ := hx
      unfold combine
      simp only
      rw [x1, x2, x3, y1, y2, if_neg hc]
    · refine ⟨rfl, rfl, rfl, ?_⟩
      rw [if_neg hc]
    · obtain ⟨e1, e2, e3, e4, e5, e6⟩ := ha
      exact ⟨e1, e2, e3, e4, e5, e6⟩

theorem next_nil (atof : Str → Rat) (x : Ext) (h : x.inp = []) : nextGiza atof x = some ({ x with ns := [], t := [] }, false) := by
  unfold nextGiza; rw [h]; rfl

theorem next_cons (fmt : Rat → Str) (atof : Str → Rat) (hf : ∀ x, Word (fmt x)) (e : Entry) (es : List Entry)
    (h : ∀ x ∈ e :: es, EntryOk x) (f : Str) (hp : printAll fmt (e :: es) = some f) :
    ∃ f', printAll fmt es = some f' ∧ ∀ x : Ext, x.inp = f → ∃ y, nextGiza atof x = some (y, true) ∧ ExtOf y e ∧
      y.reps = atof (fmt e.reps) ∧ y.inp = f' := by
  have he := h e List.mem_cons_self
  obtain ⟨f', hf'⟩ := print_all_some fmt es (fun x hx => h x (List.mem_cons_of_mem _ hx))
  rw [print_all_cons fmt e es he f' hf'] at hp
  injection hp with hp
  refine ⟨f', hf', fun x hx => ?_⟩
  exact ⟨_, next_text atof e he [fmt e.reps] (by intro w hw; rw [List.mem_singleton] at hw; rw [hw]; exact hf _) x f'
    (by rw [hx, ← hp]; rfl), ⟨rfl, rfl, rfl⟩, rfl, rfl⟩

theorem loop_eq (atof : Str → Rat) (fmt : Rat → Str) (hf : ∀ x, Word (fmt x)) (o : Opn) (tr : Bool) (as bs : List Entry)
    (ha : ∀ e ∈ as, EntryOk e) (hb : ∀ e ∈ bs, EntryOk e) (fa fb : Str) (pa : printAll fmt as = some fa) (pb : printAll fmt bs = some fb) :
    ∃ n rs out, OpResult atof fmt o tr as bs rs ∧ (∀ r ∈ rs, EntryOk r) ∧ printAll fmt rs = some out ∧
      ∀ mf fuel x y, n ≤ mf → bs.length < fuel → x.inp = fa → y.inp = fb → opLoop atof fmt mf o tr fuel x y = some out := by
  induction bs generalizing as fa fb with
  | nil =>
    injection pb with pb
    refine ⟨0, [], [], ⟨by simp, by intro k a b r _ _ h; simp at h⟩, by simp, rfl, ?_⟩
    intro mf fuel x y _ hfu hx hy
    cases fuel with
    | zero => simp at hfu
    | succ fuel => rw [opLoop, next_nil atof y (by rw [hy, ← pb])]; rfl
  | cons b bs ih =>
    obtain ⟨fb', pb', nb⟩ := next_cons fmt atof hf b bs hb fb pb
    cases as with
    | nil =>
      injection pa with pa
      refine ⟨0, [], [], ⟨by simp, by intro k a b r _ _ h; simp at h⟩, by simp, rfl, ?_⟩
      intro mf fuel x y _ hfu hx hy
      cases fuel with
      | zero => simp at hfu
      | succ fuel =>
        obtain ⟨y', hy', _⟩ := nb y hy
        rw [opLoop, hy']
        simp only [Bool.true_eq_false, if_false]
        rw [next_nil atof x (by rw [hx, ← pa])]; rfl
    | cons a as =>
      obtain ⟨fa', pa', na⟩ := next_cons fmt atof hf a as ha fa pa
      obtain ⟨n1, r, c1, c2, c3⟩ := combine_eq atof fmt o tr a b (ha a List.mem_cons_self) (hb b List.mem_cons_self)
      obtain ⟨n2, rs, out, i1, i2, i3, i4⟩ := ih as (fun e he => ha e (List.mem_cons_of_mem _ he))
        (fun e he => hb e (List.mem_cons_of_mem _ he)) fa' fb' pa' pb'
      refine ⟨max n1 n2, r :: rs, _, ⟨?_, ?_⟩, ?_, print_all_cons fmt r rs c3 out i3, ?_⟩
      · simp [i1.1]
      · intro k a' b' r' ka kb kr
        cases k with
        | zero =>
          simp only [List.getElem?_cons_zero, Option.some.injEq] at ka kb kr
          rw [← ka, ← kb, ← kr]; exact c2
        | succ k =>
          simp only [List.getElem?_cons_succ] at ka kb kr
          exact i1.2 k a' b' r' ka kb kr
      · intro e he
        rcases List.mem_cons.1 he with rfl | he
        · exact c3
        · exact i2 e he
      · intro mf fuel x y hmf hfu hx hy
        cases fuel with
        | zero => simp at hfu
        | succ fuel =>
          obtain ⟨y', hy', ey, _, iy⟩ := nb y hy
          obtain ⟨x', hx', ex, rx, ix⟩ := na x hx
          rw [opLoop, hy']
          simp only [Bool.true_eq_false, if_false]
          rw [hx']
          simp only [Bool.true_eq_false, if_false]
          rw [c1 mf x' y' (by omega) ex ey]
          simp only
          rw [i4 mf fuel { x' with mat := r.mat } y' (by omega) (by simp at hfu; omega) ix iy]
          have e1 : x'.ns = r.ns := ex.1.trans c2.1.symm
          have e2 : x'.t = r.t := ex.2.1.trans c2.2.1.symm
          have e3 : x'.reps = r.reps := rx.trans c2.2.2.1.symm
          rw [e1, e2, e3, print_text _ r c3]

/-- **C164.** An operation between two alignment files (written from any two lists of entries) ends and writes a file with one entry
for each position that exists in both files. The entry has the sentences of the first file and the matrix that results from the
operation on the two matrices of that position, the second one transposed if asked, when the sentence pairs are the same, and the
matrix of the first file otherwise. -/
theorem C164_operation (atof : Str → Rat) (fmt : Rat → Str) (hf : ∀ x, Word (fmt x)) (o : Opn) (tr : Bool) (as bs : List Entry)
    (ha : ∀ e ∈ as, EntryOk e) (hb : ∀ e ∈ bs, EntryOk e) :
    ∃ fa fb rs out, printAll fmt as = some fa ∧ printAll fmt bs = some fb ∧ OpResult atof fmt o tr as bs rs ∧
      (∀ r ∈ rs, EntryOk r) ∧ printAll fmt rs = some out ∧
      ∃ n, ∀ mf fuel, n ≤ mf → bs.length < fuel → opFiles atof fmt mf o tr fuel fa fb = some out := by
  obtain ⟨fa, pa⟩ := print_all_some fmt as ha
  obtain ⟨fb, pb⟩ := print_all_some fmt bs hb
  obtain ⟨n, rs, out, h1, h2, h3, h4⟩ := loop_eq atof fmt hf o tr as bs ha hb fa fb pa pb
  exact ⟨fa, fb, rs, out, pa, pb, h1, h2, h3, n, fun mf fuel hm hfu => h4 mf fuel _ _ hm hfu rfl rfl⟩

/-! Example: a file in each direction; the second sentence pair differs. -/

def exA : List Entry :=
  [⟨["NULL".toList, "a".toList, "b".toList], ["x".toList, "y".toList], ⟨2, 2, fun i j => if i = 0 ∧ j = 0 then 1 else if i = 1 ∧ j = 0 then 1 else 0⟩, 2⟩,
   ⟨["NULL".toList, "c".toList], ["z".toList], ⟨1, 1, fun _ _ => 1⟩, 1⟩]
def exB : List Entry :=
  [⟨["NULL".toList, "x".toList, "y".toList], ["a".toList, "b".toList], ⟨2, 2, fun i j => if i = 0 ∧ j = 0 then 1 else if i = 1 ∧ j = 1 then 1 else 0⟩, 1⟩,
   ⟨["NULL".toList, "z".toList], ["d".toList], ⟨1, 1, fun _ _ => 0⟩, 1⟩,
   ⟨["NULL".toList, "z".toList], ["d".toList], ⟨1, 1, fun _ _ => 1⟩, 1⟩]

example : ∀ e ∈ exA ++ exB, EntryOk e := by
  intro e he
  simp only [exA, exB, List.cons_append, List.nil_append, List.mem_cons, List.not_mem_nil, or_false] at he
  rcases he with rfl | rfl | rfl | rfl | rfl <;> exact ⟨by decide, by decide, by decide, rfl, rfl, by decide⟩

example : ((printAll exFmt exA).bind fun fa => (printAll exFmt exB).bind fun fb => opFiles exAtof exFmt 0 .and true 9 fa fb).map String.ofList =
    some "# 2\nx y\nNULL ({ 2 }) a ({ 1 }) b ({ }) \n# 1\nz\nNULL ({ }) c ({ 1 }) \n" := by decide +kernel

end Thot.AligFile
